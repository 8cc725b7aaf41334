import Verif.Import.AppendLemmas

/-! # When `trickle.Append` keeps the trickle shape (C18)

The definitions in this file belong to proofs; they model no code.
-/

namespace Unixfs.Import.Trickle
open Unixfs.Spec

theorem Trk.mono {m D D' : Nat} {t : T} (h : Trk m D t) (hD : D ≤ D') : Trk m D' t := by
  cases h with
  | mk D ts hne hleaf hlt hsub => exact .mk D' ts hne hleaf (fun i t hi hm => by have := hlt i t hi hm; omega) hsub

theorem verifyLinks_append (p : VerifyParams) (a b : List Link) (i : Nat) (D : Int) :
    verifyLinks p (a ++ b) i D = .ok () ↔ verifyLinks p a i D = .ok () ∧ verifyLinks p b (i + a.length) D = .ok () := by
  induction a generalizing i with
  | nil => simp [verifyLinks]
  | cons l a ih =>
    obtain ⟨x, y, n⟩ := l
    have he : i + (List.length (Link.mk x y n :: a)) = i + 1 + a.length := by simp; omega
    rw [he]
    simp only [List.cons_append]
    conv_lhs => unfold verifyLinks
    conv_rhs => lhs; unfold verifyLinks
    by_cases hg : p.canGet n = true
    · simp only [hg, not_true_eq_false, if_false]
      by_cases hi : i < p.direct
      · simp only [hi, if_true]
        cases verifyRec p n 0 with
        | error e => simp
        | ok u => exact ih (i + 1)
      · simp only [hi, if_false]
        split
        · simp
        · split
          · simp
          · cases verifyRec p n _ with
            | error e => simp
            | ok u => exact ih (i + 1)
    · simp [hg]

/-- What a successful verification of an internal node says. -/
theorem verifyRec_proto (p : VerifyParams) (d : Bytes) (ls : List Link) (b : Builder) (D : Int) (hD : D ≠ 0) :
    verifyRec p (.proto d ls b) D = .ok () ↔
      prefixOK p (.proto [] [] b) 0x70 = true ∧ (∃ msg, Pb.Data.unmarshal d = .ok msg ∧ msg.typ = some TFile ∧ msg.data.getD [] = []) ∧
      verifyLinks p ls 0 D = .ok () := by
  have hpre : prefixOK p (.proto d ls b) 0x70 = prefixOK p (.proto [] [] b) 0x70 := rfl
  conv_lhs => unfold verifyRec
  simp only [hD, if_false, hpre]
  by_cases h1 : prefixOK p (.proto [] [] b) 0x70 = true
  · simp only [h1, not_true_eq_false, if_false, FSNode.fromBytes, true_and]
    cases hu : Pb.Data.unmarshal d with
    | error e => simp
    | ok msg =>
      simp only [FSNode.type, FSNode.data, Except.ok.injEq, exists_eq_left']
      by_cases ht : msg.typ = some TFile
      · have : msg.getType = TFile := by simp [Pb.Data.getType, ht]
        simp only [this, ne_eq, not_true_eq_false, if_false, ht, true_and]
        by_cases hd : msg.data.getD [] = []
        · have : msg.getData = [] := hd
          simp [this, hd]
        · have : 0 < (msg.getData).length := List.length_pos_iff.mpr hd
          simp [this, hd]
      · have : msg.getType ≠ TFile := by
          unfold Pb.Data.getType
          cases htt : msg.typ with
          | none => decide
          | some t => intro hc; apply ht; rw [htt]; simpa using hc
        simp [this, ht]
  · simp [h1]

theorem verifyRec_raw (p : VerifyParams) (d : Bytes) (b : Builder) (D : Int) (hD : D ≠ 0) : verifyRec p (.raw d b) D ≠ .ok () := by
  unfold verifyRec
  simp only [hD, if_false]
  split <;> simp

theorem verifyRec_other (p : VerifyParams) (d : Bytes) (D : Int) (hD : D ≠ 0) : verifyRec p (.other d) D ≠ .ok () := by
  unfold verifyRec
  simp only [hD, if_false]
  split <;> simp

/-- A verified link at an index beyond the direct blocks. -/
theorem verifyLinks_single' (p : VerifyParams) (l : Link) (i : Nat) (D : Int) (hi : p.direct ≤ i) :
    verifyLinks p [l] i D = .ok () ↔ p.canGet l.target = true ∧ p.layerRepeat ≠ 0 ∧
      ¬((((i - p.direct) / p.layerRepeat + 1 : Nat) : Int) ≥ D ∧ D > 0) ∧
      verifyRec p l.target (((i - p.direct) / p.layerRepeat + 1 : Nat) : Int) = .ok () := by
  obtain ⟨x, y, n⟩ := l
  unfold verifyLinks
  simp only [Link.target]
  by_cases hg : p.canGet n = true
  · simp only [hg, not_true_eq_false, if_false, true_and]
    rw [if_neg (by omega)]
    split
    · rename_i h; simp only [h]; simp
    rename_i h0
    simp only [h0, ne_eq, not_false_eq_true, true_and]
    split
    · rename_i h; simp only [h]; simp
    · rename_i h
      simp only [h, not_false_eq_true, true_and]
      cases verifyRec p n _ with
      | error e => simp
      | ok u => simp [verifyLinks]
  · simp [hg]

theorem verifyLinks_single {p : VerifyParams} {l : Link} {i : Nat} {D : Int} (hi : p.direct ≤ i) (h : verifyLinks p [l] i D = .ok ()) :
    p.canGet l.target = true ∧ ¬((((i - p.direct) / p.layerRepeat + 1 : Nat) : Int) ≥ D ∧ D > 0) ∧
      verifyRec p l.target (((i - p.direct) / p.layerRepeat + 1 : Nat) : Int) = .ok () :=
  have := (verifyLinks_single' p l i D hi).mp h
  ⟨this.1, this.2.2⟩

mutual
theorem verify_appendable {p : VerifyParams} : ∀ {n : Node} {D : Int}, D ≠ 0 → verifyRec p n D = .ok () → Appendable p.direct n
  | .raw d b, D, hD, h => absurd h (verifyRec_raw p d b D hD)
  | .other d, D, hD, h => absurd h (verifyRec_other p d D hD)
  | .proto d ls b, D, hD, h => by
    obtain ⟨_, ⟨msg, hu, _, hd⟩, hl⟩ := (verifyRec_proto p d ls b D hD).mp h
    exact ⟨⟨msg, hu, hd⟩, fun hm => verifyL_appendable (i := 0) (by omega) hl⟩
theorem verifyL_appendable {p : VerifyParams} : ∀ {ls : List Link} {i : Nat} {D : Int}, p.direct < i + ls.length →
    verifyLinks p ls i D = .ok () → AppendableLast p.direct ls
  | [], _, _, _, _ => trivial
  | .mk x y n :: ls, i, D, hlt, h => by
    have hsplit := (verifyLinks_append p [.mk x y n] ls i D).mp h
    refine ⟨fun hnil => ?_, ?_⟩
    · subst hnil
      simp only [List.length_cons, List.length_nil] at hlt
      have := verifyLinks_single (by omega) h
      exact verify_appendable (Int.natCast_ne_zero.mpr (Nat.succ_ne_zero _)) this.2.2
    · cases ls with
      | nil => trivial
      | cons l2 ls =>
        simp only [List.length_cons] at hlt
        exact verifyL_appendable (i := i + 1) (by simp only [List.length_cons]; omega) (by simpa using hsplit.2)
end

mutual
theorem verify_growable {p : VerifyParams} : ∀ {n : Node} {D : Int}, D ≠ 0 → verifyRec p n D = .ok () → Growable p.direct n
  | .raw d b, D, hD, h => absurd h (verifyRec_raw p d b D hD)
  | .other d, D, hD, h => absurd h (verifyRec_other p d D hD)
  | .proto d ls b, D, hD, h => by
    obtain ⟨_, ⟨msg, hu, _, hd⟩, hl⟩ := (verifyRec_proto p d ls b D hD).mp h
    exact ⟨⟨msg, hu, hd⟩, verifyL_growable hl⟩
theorem verifyL_growable {p : VerifyParams} : ∀ {ls : List Link} {i : Nat} {D : Int},
    verifyLinks p ls i D = .ok () → GrowableFrom p.direct i ls
  | [], _, _, _ => trivial
  | .mk x y n :: ls, i, D, h => by
    have hsplit := (verifyLinks_append p [.mk x y n] ls i D).mp h
    refine ⟨fun hge => ?_, verifyL_growable (i := i + 1) (by simpa using hsplit.2)⟩
    have := verifyLinks_single (by omega) hsplit.1
    exact verify_growable (Int.natCast_ne_zero.mpr (Nat.succ_ne_zero _)) this.2.2
end

/-- Bound on the number of children of a verified node of depth `D`. -/
theorem verifyLinks_length {p : VerifyParams} {ls : List Link} {D : Nat} (hD : 0 < D) (h : verifyLinks p ls 0 D = .ok ())
    (hlt : p.direct < ls.length) : (ls.length - 1 - p.direct) / p.layerRepeat + 1 < D := by
  obtain ⟨pre, l, rfl⟩ : ∃ pre l, ls = pre ++ [l] := by
    have hne : ls ≠ [] := by intro h; subst h; simp at hlt
    exact ⟨ls.dropLast, ls.getLast hne, (List.dropLast_concat_getLast hne).symm⟩
  have := ((verifyLinks_append p pre [l] 0 D).mp h).2
  simp only [List.length_append, List.length_cons, List.length_nil] at hlt ⊢
  have h2 := verifyLinks_single (by omega) this
  have h3 := h2.2.1
  simp only [Nat.zero_add, ge_iff_le, gt_iff_lt, not_and, not_lt] at h3
  by_contra hc
  have : (D : Int) ≤ 0 := h3 (by push_cast at *; exact_mod_cast (by omega))
  omega

/-- Adding trees to a verified node: leaves in direct slots. -/
theorem verify_add_leaves {p : VerifyParams} {c : Cfg} {m : Nat} (h : Fits p c m) {ls : List Link} {ts : List T} {D : Int}
    (hv : verifyLinks p ls 0 D = .ok ()) (hl : T.LimL ts) (hts : ∀ t ∈ ts, ∃ d, t = .leaf d) (hlen : ls.length + ts.length ≤ m) :
    verifyLinks p (ls ++ T.toLinks c ts) 0 D = .ok () := by
  rw [verifyLinks_append]
  refine ⟨hv, ?_⟩
  have hb : ∀ i t, ts[i]? = some t → i < ts.length := fun i t hi => by
    by_contra hc; rw [List.getElem?_eq_none (by omega)] at hi; simp at hi
  refine verifyLinks_ok h D ts _ ?_ ?_ ?_
  · intro i t hi _
    obtain ⟨d, rfl⟩ := hts t (List.mem_of_getElem? hi)
    exact verify_leaf h d (limL_getElem hl hi)
  · intro i t hi hm; have := hb i t hi; omega
  · intro i t hi hm; have := hb i t hi; omega

/-- Adding trees to a verified node: sub-graphs. -/
theorem verify_add_subs {p : VerifyParams} {c : Cfg} {m : Nat} (h : Fits p c m) {ls : List Link} {ts : List T} {D : Int}
    (hv : verifyLinks p ls 0 D = .ok ()) (hl : T.LimL ts) (hm : m ≤ ls.length)
    (hts : ∀ k t, ts[k]? = some t → Trk m ((ls.length + k - m) / 4 + 1) t ∧ (D > 0 → (((ls.length + k - m) / 4 + 1 : Nat) : Int) < D)) :
    verifyLinks p (ls ++ T.toLinks c ts) 0 D = .ok () := by
  rw [verifyLinks_append]
  refine ⟨hv, ?_⟩
  simp only [Nat.zero_add]
  refine verifyLinks_ok h D ts _ ?_ ?_ ?_
  · intro i t hi h2; omega
  · intro i t hi _ hd; exact (hts i t hi).2 hd
  · intro i t hi _
    exact (hts i t hi).1.verify h (limL_getElem hl hi) (Nat.succ_ne_zero _)

/-- Shape part of `appendDirect`. -/
theorem appendDirect_shape {p : VerifyParams} {m : Nat} {D : Int} {fsn fsn' : FSN} {c : Bytes} {db db' : DB} {depth : Nat}
    (h : Fits p (db.cfg TRaw) m) (hm : db.maxlinks = m) (hi : db.Inv) (ho : fsn.OK c) (hv : verifyLinks p fsn.links 0 D = .ok ())
    (hr : appendDirect fsn db = .ok ((fsn', depth), db')) :
    verifyLinks p fsn'.links 0 D = .ok () ∧
    ((fsn.links.length < m ∧ depth = 1 ∧ fsn'.links.length ≤ m) ∨ (m ≤ fsn.links.length ∧ depth = (fsn.links.length - m) / 4 + 1 ∧ fsn' = fsn)) := by
  unfold appendDirect depthInfo at hr
  rw [hm, ho.num] at hr
  simp only at hr
  by_cases hlt : fsn.links.length < m
  · rw [if_pos hlt, if_pos rfl] at hr
    have hg := fillNodeLayer_spec fsn db hi (IsFileMsg.isSome ho.typ)
    cases hgr : DB.fillNodeLayer fsn db with
    | error e => rw [hgr] at hr; cases hr
    | ok q =>
      obtain ⟨fsn1, db1⟩ := q
      rw [hgr] at hr hg
      simp only [Except.ok.injEq, Prod.mk.injEq] at hr
      obtain ⟨⟨rfl, rfl⟩, rfl⟩ := hr
      obtain ⟨ts, cs, new, d, ha, hf, hc, -, hq, hn, -⟩ := hg
      rw [hm, ho.num] at hq
      have hlim : T.LimL ts := T.limL_of_chunks ts (by rw [hc]; exact ha.lim)
      have hq2 := hq.2.1
      rw [hf]
      simp only [FSN.addTrees]
      refine ⟨verify_add_leaves h hv hlim hq.1 (by omega), .inl ⟨hlt, by trivial, ?_⟩⟩
      simp only [List.length_append, T.toLinks_length]; omega
  · rw [if_neg hlt, if_neg (Nat.succ_ne_zero _)] at hr
    simp only [Except.ok.injEq, Prod.mk.injEq, depthRepeat] at hr
    obtain ⟨⟨rfl, rfl⟩, rfl⟩ := hr
    exact ⟨hv, .inr ⟨by omega, rfl, rfl⟩⟩

/-- `appendRec` of depth bound at most 2 keeps the shape of a node of depth at most 3. -/
def RecShape (p : VerifyParams) (m : Nat) (rec : FSN → DB → Int → Except Err ((FSN × UInt64) × DB)) : Prop :=
  ∀ (fsn : FSN) (c : Bytes) (db : DB) (M : Int) (D : Nat) (fsn' : FSN) (sz : UInt64) (db' : DB), Fits p (db.cfg TRaw) m → db.maxlinks = m → db.Inv → fsn.OK c →
    0 < D → D ≤ 3 → M ≤ 2 → verifyLinks p fsn.links 0 D = .ok () → rec fsn db M = .ok ((fsn', sz), db') →
    verifyLinks p fsn'.links 0 D = .ok ()

theorem appendFillLastChild_shape {p : VerifyParams} {m : Nat} (hm0 : 0 < m) {h : Nat} {rec} (hrec : RecOK m h rec) (hsh : RecShape p m rec)
    {fsn fsn' : FSN} {c : Bytes} {db db' : DB} {depth : Nat} {D : Int} (hF : Fits p (db.cfg TRaw) m) (hm : db.maxlinks = m) (hi : db.Inv)
    (ho : fsn.OK c) (hbig : m < fsn.links.length) (hv : verifyLinks p fsn.links 0 D = .ok ())
    (hsmall : (fsn.links.length - 1 - m) / 4 + 1 ≤ 3) (hdep : depth ≤ (fsn.links.length - m) / 4 + 1) (hdep3 : depth ≤ 3)
    (hr : appendFillLastChild rec fsn depth ((fsn.links.length - m) % 4) db = .ok (fsn', db')) :
    verifyLinks p fsn'.links 0 D = .ok () ∧
    (((fsn.links.length - m) % 4 ≠ 0 ∧ m ≤ fsn'.links.length ∧ (db'.More → fsn'.links.length = m + 4 * ((fsn.links.length - m) / 4 + 1))) ∨
     ((fsn.links.length - m) % 4 = 0 ∧ fsn'.links.length = fsn.links.length)) := by
  have hdir := hF.direct
  have hrep := hF.layerRepeat
  unfold appendFillLastChild at hr
  rw [if_neg (by rw [ho.num, hm]; omega)] at hr
  obtain ⟨pre, l, hlinks, hget⟩ := last_link ho (m := m) (by rw [ho.num]; exact hbig)
  obtain ⟨fsnR, cp, cl, hrem, hoR, hcl, hc, hRl, hRb, hRt⟩ := ho.removeLast hlinks
  have hsl : SizesTrue l.target := by
    have := ho.sizes
    rw [hlinks, sizesTrueL_append] at this
    obtain ⟨a, b, n⟩ := l
    exact this.2.1
  have hlen : fsn.links.length = pre.length + 1 := by rw [hlinks]; simp
  rw [hlinks, verifyLinks_append] at hv
  have hvl := verifyLinks_single (by rw [hdir]; omega) hv.2
  rw [hdir, hrep, Nat.zero_add] at hvl
  obtain ⟨hcg, hnd, hvl⟩ := hvl
  generalize hD' : (pre.length - m) / 4 + 1 = D' at *
  simp only [FSN.getChild, hget] at hr
  by_cases hg : db.canGet l.target = true
  swap
  · rw [if_neg hg] at hr; cases hr
  rw [if_pos hg] at hr
  have hD0 : 0 < D' := by omega
  have hD3 : D' ≤ 3 := by rw [hlen] at hsmall; omega
  cases hlt : l.target with
  | raw d b => rw [hlt] at hvl; exact absurd hvl (verifyRec_raw _ _ _ _ (by omega))
  | other d => rw [hlt] at hvl; exact absurd hvl (verifyRec_other _ _ _ (by omega))
  | proto d ls b =>
    rw [hlt] at hvl hsl hcl
    simp only [hlt] at hr
    obtain ⟨hpre, ⟨msg, hu, hty, hdat⟩, hvls⟩ := (verifyRec_proto p d ls b D' (by omega)).mp hvl
    obtain ⟨fsnL, hfd, hoL, hLl, hLb, hLu⟩ := fromDag_ok hsl ⟨msg, hu, hdat⟩ hcl
    rw [hu] at hLu; cases hLu
    simp only [hfd] at hr
    have happ : m < fsnL.links.length → AppendableLast m fsnL.links := by
      intro hb; rw [hLl] at hb ⊢
      have := verifyL_appendable (p := p) (i := 0) (by rw [hdir]; omega) hvls
      rw [hdir] at this; exact this
    have hr1 := hrec fsnL cl db ((depth : Int) - 1) hm hi hoL happ
    cases hre : rec fsnL db ((depth : Int) - 1) with
    | error e => rw [hre] at hr; cases hr
    | ok q =>
      obtain ⟨⟨fsnN, sz⟩, db1⟩ := q
      rw [hre] at hr1 hr
      have hs1 := hsh fsnL cl db _ D' fsnN sz db1 hF hm hi hoL hD0 hD3 (by omega) (by rw [hLl]; exact hvls) hre
      obtain ⟨hA, hsz⟩ := hr1
      obtain ⟨cs, new, ha, hoN, hsN, hrN, hbN, htN, -⟩ := hA.ex
      simp only [hrem] at hr
      rw [FSN.commit_of_typ _ (IsFileMsg.isSome hoN.typ)] at hr
      simp only [FSN.addChild] at hr
      rcases add_spec db1 ⟨.proto fsnN.file.bytes fsnN.links fsnN.builder, none⟩ ha.inv with ⟨db2, h2, hadd⟩ | ⟨h2, hb⟩
      swap
      · simp only [h2] at hr; cases hr
      simp only [h2] at hr
      have ha2 := ha.trans hadd
      -- the new last child is accepted
      have hvN : verifyRec p (.proto fsnN.file.bytes fsnN.links fsnN.builder) D' = .ok () := by
        rw [verifyRec_proto p _ _ _ _ (by omega)]
        refine ⟨by rw [hbN, hLb]; exact hpre, ⟨_, hoN.unmarshal, by rw [htN]; exact hty, hoN.data⟩, hs1⟩
      have hvF : verifyLinks p (fsnR.links ++ [makeLink [] (.proto fsnN.file.bytes fsnN.links fsnN.builder)]) 0 D = .ok () := by
        rw [hRl, verifyLinks_append]
        refine ⟨hv.1, ?_⟩
        rw [verifyLinks_single' p _ _ _ (by rw [hdir]; omega), hdir, hrep, Nat.zero_add, hD']
        exact ⟨hF.canGet _, by decide, hnd, hvN⟩
      by_cases hrepz : (fsn.links.length - m) % 4 ≠ 0
      · rw [if_pos hrepz] at hr
        refine ⟨?_, .inl ⟨hrepz, ?_⟩⟩
        all_goals
          have hm2 : db2.maxlinks = m := by rw [ha2.maxlinks, hm]
          set fsnF : FSN := { fsnR with links := fsnR.links ++ [makeLink [] (.proto fsnN.file.bytes fsnN.links fsnN.builder)]
                                        file := fsnR.file.addBlockSize sz } with hFe
          have hg := repeat_spec (subTrickle_spec m hm0 depth) (depthRepeat - (fsn.links.length - m) % 4) fsnF db2 hm2 hadd.inv
          rw [hr] at hg
          obtain ⟨ts, cs3, new3, d3, ha3, hf3, hc3, -, hq, hn3, -⟩ := hg
          have hFl : fsnF.links.length = fsn.links.length := by rw [hFe]; simp [hRl, hlen]
          have hlim : T.LimL ts := T.limL_of_chunks ts (by rw [hc3]; exact ha3.lim)
          have hts : ts.length ≤ 4 - (fsn.links.length - m) % 4 := hq.2.1
          rw [hf3]
          simp only [FSN.addTrees]
        · rw [← Adv.cfg ha2] at hF
          refine verify_add_subs hF hvF hlim (by rw [hFl]; omega) ?_
          intro k t hk
          have hkl : k < ts.length := by
            by_contra hcon; rw [List.getElem?_eq_none (by omega)] at hk; simp at hk
          have hidx : (fsnF.links.length + k - m) / 4 + 1 = (fsn.links.length - m) / 4 + 1 := by rw [hFl]; omega
          rw [hidx]
          refine ⟨(hq.1 t (List.mem_of_getElem? hk)).mono hdep, fun hpos => ?_⟩
          have : (fsn.links.length - m) / 4 + 1 = D' := by omega
          rw [this]; omega
        · simp only [List.length_append, T.toLinks_length, hFl]
          refine ⟨by omega, fun hmore => ?_⟩
          have := hq.2.2.1.resolve_right (not_not.mpr hmore)
          unfold depthRepeat at this
          omega
      · rw [if_neg hrepz] at hr
        simp only [Except.ok.injEq, Prod.mk.injEq] at hr
        obtain ⟨rfl, rfl⟩ := hr
        exact ⟨hvF, .inr ⟨by omega, by simp [hRl, hlen]⟩⟩

theorem appendRec_shape {p : VerifyParams} {m : Nat} (hm0 : 0 < m) (h : Nat) : RecShape p m (appendRec h) := by
  induction h with
  | zero => intro fsn c db M D fsn' sz db' hF hm hi ho h0 h3 hM hv hr; cases hr
  | succ h ih =>
    intro fsn c db M D fsn' sz db' hF hm hi ho h0 h3 hM hv hr
    unfold appendRec at hr
    by_cases hM0 : M = 0
    · rw [if_pos hM0] at hr
      simp only [Except.ok.injEq, Prod.mk.injEq] at hr
      obtain ⟨⟨rfl, rfl⟩, rfl⟩ := hr; exact hv
    rw [if_neg hM0] at hr
    have ha0 := done_adv db hi
    cases hdn : db.done with
    | mk b db0 =>
      rw [hdn] at ha0 hr
      cases b with
      | true =>
        simp only [Except.ok.injEq, Prod.mk.injEq] at hr
        obtain ⟨⟨rfl, rfl⟩, rfl⟩ := hr; exact hv
      | false =>
        simp only at hr
        have hm0' : db0.maxlinks = m := by rw [ha0.maxlinks, hm]
        have hF0 : Fits p (db0.cfg TRaw) m := by rw [← Adv.cfg ha0] at hF; exact hF
        have happ : m < fsn.links.length → AppendableLast m fsn.links := by
          intro hb
          have := verifyL_appendable (p := p) (i := 0) (by rw [hF.direct]; omega) hv
          rw [hF.direct] at this; exact this
        have h1 := appendDirect_spec m fsn c db0 hm0' ha0.inv ho happ
        cases hr1 : appendDirect fsn db0 with
        | error e => rw [hr1] at hr; cases hr
        | ok q =>
          obtain ⟨⟨fsn1, depth⟩, db1⟩ := q
          rw [hr1] at h1 hr
          obtain ⟨hA1, -⟩ := h1
          obtain ⟨cs1, new1, ha1, ho1, hs1, hr1', hb1, ht1, -⟩ := hA1.ex
          obtain ⟨hv1, hshape⟩ := appendDirect_shape hF0 hm0' ha0.inv ho hv hr1
          simp only at hr
          by_cases hdd : (depth : Int) = M
          · rw [if_pos hdd] at hr
            simp only [Except.ok.injEq, Prod.mk.injEq] at hr
            obtain ⟨⟨rfl, rfl⟩, rfl⟩ := hr; exact hv1
          rw [if_neg hdd] at hr
          have hm1 : db1.maxlinks = m := by rw [ha1.maxlinks, hm0']
          have hF1 : Fits p (db1.cfg TRaw) m := by rw [← Adv.cfg ha1] at hF0; exact hF0
          cases hr2 : appendFillLastChild (appendRec h) fsn1 depth (depthInfo fsn db0.maxlinks).2 db1 with
          | error e => rw [hr2] at hr; cases hr
          | ok q =>
            obtain ⟨fsn2, db2⟩ := q
            rw [hr2] at hr
            have hv2 : verifyLinks p fsn2.links 0 D = .ok () := by
              rcases hshape with ⟨hlt, hd1, hle⟩ | ⟨hge, hd1, rfl⟩
              · unfold appendFillLastChild at hr2
                rw [if_pos (by rw [ho1.num, hm1]; exact hle)] at hr2
                simp only [Except.ok.injEq, Prod.mk.injEq] at hr2
                obtain ⟨rfl, rfl⟩ := hr2; exact hv1
              · by_cases heq : fsn1.links.length = m
                · unfold appendFillLastChild at hr2
                  rw [if_pos (by rw [ho1.num, hm1]; omega)] at hr2
                  simp only [Except.ok.injEq, Prod.mk.injEq] at hr2
                  obtain ⟨rfl, rfl⟩ := hr2; exact hv1
                · have hinfo : (depthInfo fsn1 db0.maxlinks).2 = (fsn1.links.length - m) % 4 := by
                    unfold depthInfo; rw [hm0', ho.num]; simp only; rw [if_neg (by omega)]; rfl
                  rw [hinfo] at hr2
                  have hbnd := verifyLinks_length h0 hv1 (by rw [hF.direct]; omega)
                  rw [hF.direct, hF.layerRepeat] at hbnd
                  exact (appendFillLastChild_shape hm0 (appendRec_spec m hm0 h) ih hF1 hm1 ha1.inv ho (by omega) hv1
                    (by omega) (by omega) (by omega) hr2).1
            simp only at hr
            have h2 := appendFillLastChild_spec m hm0 h (appendRec h) (appendRec_spec m hm0 h) fsn1 _ depth (depthInfo fsn db0.maxlinks).2 db1 hm1 ha1.inv ho1 hs1
            rw [hr2] at h2
            obtain ⟨cs2, new2, ha2, -⟩ := h2.1.ex
            have had := done_adv db2 ha2.inv
            have hdi := done_iff db2 ha2.inv
            have hdm := done_more db2 ha2.inv
            have hmd : db2.done.2.maxlinks = m := by rw [had.maxlinks, ha2.maxlinks, hm1]
            generalize hdep : (if db2.done.1 = true then depth else depth + 1) = dep at hr
            have hg := boundedGrow_spec m hm0 (M - dep).toNat dep fsn2 db2.done.2 hmd had.inv
            cases hgr : boundedGrow (M - dep).toNat dep fsn2 db2.done.2 with
            | error e => rw [hgr] at hr; cases hr
            | ok q =>
              obtain ⟨fsn3, db3⟩ := q
              rw [hgr] at hr hg
              simp only [Except.ok.injEq, Prod.mk.injEq] at hr
              obtain ⟨⟨rfl, rfl⟩, rfl⟩ := hr
              by_cases hdd2 : db2.done.1 = true
              · obtain ⟨ts, cs3, new3, d3, ha3, hf3, hc3, hmo, -⟩ := hg
                have hts := hmo.resolve_left (by rw [hdm]; exact hdi.mp hdd2)
                subst hts
                rw [hf3, FSN.addTrees_nil]; exact hv2
              · have hd1 : 1 ≤ depth := by rcases hshape with ⟨_, h, _⟩ | ⟨_, h, _⟩ <;> omega
                rw [if_neg hdd2] at hdep
                have hz : (M - dep).toNat = 0 := by omega
                rw [hz] at hgr
                simp only [boundedGrow, Except.ok.injEq, Prod.mk.injEq] at hgr
                rw [← hgr.1]; exact hv2

/-- `Append` keeps the shape when the data fits the free direct slots of the root. -/
theorem append_shape_direct {p : VerifyParams} {m : Nat} (hm0 : 0 < m) {fuel h : Nat} {d : Bytes} {ls : List Link} {b : Builder}
    {db db' : DB} {n : Node} (hF : Fits p (db.cfg TRaw) m) (hm : db.maxlinks = m) (hi : db.Inv) (hs : SizesTrue (.proto d ls b))
    (hv : verify (.proto d ls b) p = .ok ()) (hlt : ls.length < m) (hfit : ls.length + db.pend.length ≤ m) (hse : db.srcEnd = none)
    (hr : append fuel h (.proto d ls b) db = .ok (n, db')) : verify n p = .ok () := by
  have happ := verify_appendable (p := p) (by omega) hv
  rw [hF.direct] at happ
  obtain ⟨c, hc⟩ := sizesTrue_content hs
  obtain ⟨fsn, hfd, ho, hl, hb, hu, hA⟩ := append_spec m hm0 fuel h d ls b db c hm hi hs happ hc
  obtain ⟨hpre, ⟨msg, hu', hty, hdat⟩, hvls⟩ := (verifyRec_proto p d ls b (-1) (by omega)).mp hv
  rw [hu] at hu'; cases hu'
  rw [hr] at hA
  obtain ⟨fsn', hA, -, hn⟩ := hA
  obtain ⟨_, _, _, ho', _, _, hb', ht', _⟩ := hA.ex
  have hfin : ∀ fsn1 : FSN, n = .proto fsn1.file.bytes fsn1.links fsn1.builder → verifyLinks p fsn1.links 0 (-1) = .ok () → verify n p = .ok () := by
    intro fsn1 h1 h2
    unfold verify
    rw [h1, verifyRec_proto p _ _ _ _ (by omega)]
    rw [h1] at hn
    simp only [Node.proto.injEq] at hn
    refine ⟨by rw [hn.2.2, hb', hb]; exact hpre, ⟨_, by rw [hn.1]; exact ho'.unmarshal, by rw [ht']; exact hty, ho'.data⟩, h2⟩
  unfold append at hr
  have hinfo : (depthInfo fsn db.maxlinks).1 = 0 := by
    unfold depthInfo; rw [hm, ho.num, hl]; simp only; rw [if_pos hlt]
  simp only [hfd] at hr
  rw [if_pos hinfo] at hr
  have hg := fillNodeLayer_spec fsn db hi (IsFileMsg.isSome ho.typ)
  cases hgr : DB.fillNodeLayer fsn db with
  | error e => rw [hgr] at hr; cases hr
  | ok q =>
    obtain ⟨fsn1, db1⟩ := q
    rw [hgr] at hr hg
    obtain ⟨ts, cs, new, d1, ha, hf, hcs, -, hq, -⟩ := hg
    rw [hm, ho.num, hl] at hq
    have hlim : T.LimL ts := T.limL_of_chunks ts (by rw [hcs]; exact ha.lim)
    have hlen : cs.length = ts.length := by
      rw [← hcs]
      have := hq.1
      clear hq hcs hlim hf
      induction ts with
      | nil => rfl
      | cons t ts ih =>
        obtain ⟨x, rfl⟩ := this t (by simp)
        simp only [T.chunksL, T.chunks, List.length_append, List.length_cons, List.length_nil]
        have := ih (fun t ht => this t (by simp [ht]))
        omega
    have hq2 := hq.2.1
    have hnm : ¬db1.More := by
      rcases hq.2.2.1 with h3 | h3
      · unfold DB.More
        rw [not_not]
        refine ⟨?_, by rw [ha.srcEnd, hse]⟩
        have h4 := congrArg List.length ha.pend
        rw [List.length_append] at h4
        exact List.length_eq_zero_iff.mp (by omega)
      · exact h3
    have hvl1 : verifyLinks p fsn1.links 0 (-1) = .ok () := by
      rw [hf]
      simp only [FSN.addTrees, hl]
      exact verify_add_leaves hF hvls hlim hq.1 (by omega)
    have hdi := done_iff db1 ha.inv
    cases hdn : db1.done with
    | mk bb db2 =>
      simp only [hdn] at hr
      rw [hdn] at hdi
      have : bb = true := hdi.mpr hnm
      subst this
      simp only [Except.ok.injEq, Prod.mk.injEq] at hr
      refine hfin fsn1 ?_ hvl1
      have ht1 : fsn1.file.format.typ.isSome := by
        rw [hf]; simp only [FSN.addTrees]; rw [addSizes_typ, hty]; rfl
      rw [← hr.1]
      simp [FSN.getDagNode, fillNodeLayer_commit hgr ht1]

/-- `Append` keeps the shape when the base ends inside one of its first three layers of sub-graphs. -/
theorem append_shape_inside {p : VerifyParams} {m : Nat} (hm0 : 0 < m) {fuel h : Nat} {d : Bytes} {ls : List Link} {b : Builder}
    {db db' : DB} {n : Node} (hF : Fits p (db.cfg TRaw) m) (hm : db.maxlinks = m) (hi : db.Inv) (hs : SizesTrue (.proto d ls b))
    (hv : verify (.proto d ls b) p = .ok ()) (hgt : m < ls.length) (h12 : ls.length < m + 12) (hmod : (ls.length - m) % 4 ≠ 0)
    (hr : append fuel h (.proto d ls b) db = .ok (n, db')) : verify n p = .ok () := by
  have happ := verify_appendable (p := p) (by omega) hv
  rw [hF.direct] at happ
  obtain ⟨c, hc⟩ := sizesTrue_content hs
  obtain ⟨fsn, hfd, ho, hl, hb, hu, hA⟩ := append_spec m hm0 fuel h d ls b db c hm hi hs happ hc
  obtain ⟨hpre, ⟨msg, hu', hty, hdat⟩, hvls⟩ := (verifyRec_proto p d ls b (-1) (by omega)).mp hv
  rw [hu] at hu'; cases hu'
  rw [hr] at hA
  obtain ⟨fsn', hA, -, hn⟩ := hA
  obtain ⟨_, _, _, ho', _, _, hb', ht', _⟩ := hA.ex
  have hfin : ∀ fsn1 : FSN, n = .proto fsn1.file.bytes fsn1.links fsn1.builder → verifyLinks p fsn1.links 0 (-1) = .ok () → verify n p = .ok () := by
    intro fsn1 h1 h2
    unfold verify
    rw [h1, verifyRec_proto p _ _ _ _ (by omega)]
    rw [h1] at hn
    simp only [Node.proto.injEq] at hn
    refine ⟨by rw [hn.2.2, hb', hb]; exact hpre, ⟨_, by rw [hn.1]; exact ho'.unmarshal, by rw [ht']; exact hty, ho'.data⟩, h2⟩
  have hspine : m < fsn.links.length → AppendableLast m fsn.links := by rw [hl]; exact happ.2
  unfold append at hr
  have hinfo : depthInfo fsn db.maxlinks = ((ls.length - m) / 4 + 1, (ls.length - m) % 4) := by
    unfold depthInfo; rw [hm, ho.num, hl]; simp only; rw [if_neg (by omega)]; rfl
  simp only [hfd, hinfo] at hr
  rw [if_neg (Nat.succ_ne_zero _)] at hr
  unfold appendRest at hr
  rw [Nat.add_sub_cancel] at hr
  cases hr2 : appendFillLastChild (appendRec h) fsn ((ls.length - m) / 4) ((ls.length - m) % 4) db with
  | error e => rw [hr2] at hr; cases hr
  | ok q =>
    obtain ⟨fsn2, db2⟩ := q
    rw [hr2] at hr
    have h2 := appendFillLastChild_spec m hm0 h (appendRec h) (appendRec_spec m hm0 h) fsn c ((ls.length - m) / 4) ((ls.length - m) % 4) db hm hi ho hspine
    have hsh := appendFillLastChild_shape (D := -1) (fsn := fsn) (fsn' := fsn2) (depth := (ls.length - m) / 4) hm0 (appendRec_spec m hm0 h) (appendRec_shape hm0 h)
      hF hm hi ho (by rw [hl]; omega) (by rw [hl]; exact hvls) (by rw [hl]; omega) (by rw [hl]; omega) (by omega) (by rw [hl]; exact hr2)
    rw [hl] at hsh
    rw [hr2] at h2
    obtain ⟨hv2, hlen2⟩ := hsh
    obtain ⟨-, hge2, hlen2⟩ := hlen2.resolve_right (by omega)
    obtain ⟨cs2, new2, ha2, ho2, -, -, -, ht2, -⟩ := h2.1.ex
    simp only at hr
    have had := done_adv db2 ha2.inv
    have hdi := done_iff db2 ha2.inv
    have hdm := done_more db2 ha2.inv
    have hmd : db2.done.2.maxlinks = m := by rw [had.maxlinks, ha2.maxlinks, hm]
    generalize hdep : (if db2.done.1 = true then (ls.length - m) / 4 + 1 else (ls.length - m) / 4 + 1 + 1) = dep at hr
    obtain ⟨-, hg⟩ := growLoop_spec m hm0 fuel dep fsn2 db2.done.2 hmd had.inv
    cases hgr : growLoop fuel dep fsn2 db2.done.2 with
    | error e => rw [hgr] at hr; cases hr
    | ok q =>
      obtain ⟨fsn3, db3⟩ := q
      rw [hgr] at hg hr
      obtain ⟨ts, cs3, new3, d3, ha3, hf3, hc3, hmo, hq, -⟩ := hg.resolve_left (by simp)
      have hlim : T.LimL ts := T.limL_of_chunks ts (by rw [hc3]; exact ha3.lim)
      have htyp3 : fsn3.file.format.typ = some TFile := by
        rw [hf3]; simp only [FSN.addTrees]; rw [addSizes_typ, ht2, hty]
      simp only [FSN.commit_of_typ _ (show fsn3.file.format.typ.isSome by rw [htyp3]; rfl), Except.ok.injEq, Prod.mk.injEq] at hr
      refine hfin fsn3 hr.1.symm ?_
      rw [hf3]
      simp only [FSN.addTrees]
      by_cases hts : ts = []
      · subst hts; simpa [T.toLinks] using hv2
      · have hmore : db2.More := by rw [← hdm]; exact hmo.resolve_right hts
        have hnd : ¬db2.done.1 = true := fun h => hdi.mp h hmore
        rw [if_neg hnd] at hdep
        have hcfg : Fits p (db2.done.2.cfg TRaw) m := by
          rw [← Adv.cfg (ha2.trans had)] at hF; exact hF
        have hl2 := hlen2 hmore
        refine verify_add_subs hcfg hv2 hlim hge2 ?_
        intro k t hk
        refine ⟨?_, by omega⟩
        have := hq.2 k t hk
        have he : dep + k / depthRepeat = (fsn2.links.length + k - m) / 4 + 1 := by
          unfold depthRepeat; omega
        rwa [he] at this

end Unixfs.Import.Trickle
