import Verif.Import.AppendLemmas

/-! # How many blocks an Append stores

Every chunk of new data pays for two blocks: its own leaf, and one node above it. `due` is what has
been stored plus what the pending chunks will pay for; building leaves and sub-graphs never increases
it, and refilling the last child on the right edge adds one block per level.

The definitions in this file belong to proofs; they model no code. -/

namespace Unixfs.Import.Trickle

open Unixfs.Import

/-- Blocks stored, and two for each chunk still to come. -/
def due (db : DB) : Nat := db.added.length + 2 * db.pend.length

/-- A step that keeps the builder's settings and increases `due` by at most `k`. -/
structure Paid (k : Nat) (db db' : DB) : Prop where
  inv : db'.Inv
  maxlinks : db'.maxlinks = db.maxlinks
  le : due db' ≤ due db + k

theorem Paid.refl {db : DB} (h : db.Inv) : Paid 0 db db := ⟨h, rfl, by simp⟩

theorem Paid.mono {j k : Nat} {db db' : DB} (h : Paid j db db') (hk : j ≤ k) : Paid k db db' :=
  ⟨h.inv, h.maxlinks, by have := h.le; omega⟩

theorem Paid.trans {j k : Nat} {a b c : DB} (h : Paid j a b) (h' : Paid k b c) : Paid (j + k) a c :=
  ⟨h'.inv, h'.maxlinks.trans h.maxlinks, by have := h.le; have := h'.le; omega⟩

theorem Adv.due {db db' : DB} {cs : List Bytes} {new : List Built} (a : Adv db cs new db') :
    due db' + 2 * cs.length = due db + new.length := by
  have hp := congrArg List.length a.pend
  have ha := congrArg List.length a.added
  simp only [List.length_append] at hp ha
  unfold Trickle.due
  omega

theorem done_paid (db : DB) (h : db.Inv) : Paid 0 db db.done.2 := by
  have a := done_adv db h
  have := Adv.due a
  exact ⟨a.inv, a.maxlinks, by simp at this; omega⟩

theorem done_eq_paid {db db' : DB} {b : Bool} (h : db.Inv) (e : db.done = (b, db')) : Paid 0 db db' := by
  have := done_paid db h; rwa [e] at this

theorem done_false_more {db db' : DB} (h : db.Inv) (e : db.done = (false, db')) : db'.More := by
  have h1 := (done_iff db h).not
  rw [e] at h1
  have h2 := done_more db h
  rw [e] at h2
  exact h2.mpr (not_not.mp (h1.mp (by simp)))

theorem add_paid {db db' : DB} {b : Built} (h : db.Inv) (e : db.add b = .ok db') : Paid 1 db db' := by
  rcases add_spec db b h with ⟨d, hd, a⟩ | ⟨hd, _⟩
  · rw [hd] at e; cases e
    have := Adv.due a
    exact ⟨a.inv, a.maxlinks, by simp at this; omega⟩
  · rw [hd] at e; cases e

theorem addChild_paid {n n' : FSN} {c : Built} {sz : UInt64} {db db' : DB} (h : db.Inv)
    (e : n.addChild c sz db = .ok (n', db')) : Paid 1 db db' := by
  unfold FSN.addChild at e
  dsimp only at e
  split at e
  · cases e
  · rename_i hd; cases e; exact add_paid h hd

/-- A leaf uses up one chunk. -/
theorem leaf_paid {lt : UInt32} {r : Built × UInt64} {db db' : DB} (h : db.Inv) (hm : db.More)
    (e : db.newLeafDataNode lt = .ok (r, db')) :
    db'.Inv ∧ db'.maxlinks = db.maxlinks ∧ due db' + 2 ≤ due db := by
  have hs := newLeafDataNode_spec db lt h hm
  rw [e] at hs
  obtain ⟨b, sz⟩ := r
  obtain ⟨t, cs, new, a, -, -, htc, -, ⟨c, rfl⟩, hn, -⟩ := hs
  have := Adv.due a
  have h1 : cs.length = 1 := by rw [← htc]; simp [T.chunks]
  have h2 := congrArg List.length hn
  simp [T.nodes] at h2
  have h3 : new.length = 0 := by simp [h2]
  exact ⟨a.inv, a.maxlinks, by omega⟩

theorem fillLayerLoop_paid (k : Nat) : ∀ (fsn fsn' : FSN) (db db' : DB), db.Inv →
    DB.fillLayerLoop k fsn db = .ok (fsn', db') →
    Paid 0 db db' ∧ (0 < k → db.More → due db' + 1 ≤ due db) := by
  induction k with
  | zero =>
    intro fsn fsn' db db' h e
    cases e
    exact ⟨Paid.refl h, by simp⟩
  | succ k ih =>
    intro fsn fsn' db db' h e
    unfold DB.fillLayerLoop at e
    split at e
    · rename_i d hd
      cases e
      refine ⟨done_eq_paid h hd, fun _ hm => ?_⟩
      have := (done_iff db h).mp (by rw [hd])
      exact absurd hm this
    · rename_i d hd
      have p1 := done_eq_paid h hd
      split at e
      · cases e
      · rename_i c sz d2 hl
        obtain ⟨i2, m2, u2⟩ := leaf_paid p1.inv (done_false_more h hd) hl
        split at e
        · cases e
        · rename_i f3 d3 ha
          have p3 := addChild_paid i2 ha
          have p4 := (ih _ _ _ _ p3.inv e).1
          have := p1.le; have := p3.le; have := p4.le
          exact ⟨⟨p4.inv, by rw [p4.maxlinks, p3.maxlinks, m2, p1.maxlinks], by omega⟩, fun _ _ => by omega⟩

theorem fillNodeLayer_paid {fsn fsn' : FSN} {db db' : DB} (h : db.Inv)
    (e : DB.fillNodeLayer fsn db = .ok (fsn', db')) :
    Paid 0 db db' ∧ (fsn.numChildren < db.maxlinks → db.More → due db' + 1 ≤ due db) := by
  unfold DB.fillNodeLayer at e
  split at e
  · cases e
  · rename_i f d hf
    have := fillLayerLoop_paid _ _ _ _ _ h hf
    split at e
    · cases e
    · cases e; exact ⟨this.1, fun hlt => this.2 (by omega)⟩

/-- What building a sub-graph costs: at least one less than it uses up. -/
def SubPaid (m : Nat) (sub : DB → Except Err ((Node × UInt64) × DB)) : Prop :=
  ∀ db db' r, db.Inv → db.More → db.maxlinks = m → sub db = .ok (r, db') →
    Paid 0 db db' ∧ due db' + 1 ≤ due db

theorem repeatLoop_paid {m : Nat} {sub : DB → Except Err ((Node × UInt64) × DB)} (hsub : SubPaid m sub)
    (k : Nat) : ∀ (fsn fsn' : FSN) (db db' : DB), db.Inv → db.maxlinks = m →
    repeatLoop sub k fsn db = .ok (fsn', db') → Paid 0 db db' := by
  induction k with
  | zero => intro fsn fsn' db db' h _ e; cases e; exact Paid.refl h
  | succ k ih =>
    intro fsn fsn' db db' h hm e
    unfold repeatLoop at e
    split at e
    · rename_i d hd; cases e; exact done_eq_paid h hd
    · rename_i d hd
      have p1 := done_eq_paid h hd
      split at e
      · cases e
      · rename_i c sz d2 hl
        obtain ⟨p2, u2⟩ := hsub _ _ _ p1.inv (done_false_more h hd) (p1.maxlinks.trans hm) hl
        split at e
        · cases e
        · rename_i f3 d3 ha
          have p3 := addChild_paid p2.inv ha
          have hm3 : d3.maxlinks = m := by rw [p3.maxlinks, p2.maxlinks, p1.maxlinks, hm]
          have p4 := ih _ _ _ _ p3.inv hm3 e
          have := p1.le; have := p3.le; have := p4.le
          exact ⟨p4.inv, by rw [p4.maxlinks, hm3, hm], by omega⟩

theorem finish_db {fsn : FSN} {db db' : DB} {r : Node × UInt64} (e : finish fsn db = .ok (r, db')) : db' = db := by
  unfold finish at e
  split at e
  · cases e
  · cases e; rfl

theorem subOf_paid {m : Nat} (hm : 0 < m) {d : Nat}
    (hl : ∀ (fsn fsn' : FSN) (db db' : DB), db.Inv → db.maxlinks = m →
      layers d fsn db = .ok (fsn', db') → Paid 0 db db') : SubPaid m (subTrickle d) := by
  intro db db' r h more hml e
  unfold subTrickle fillTrickle at e
  split at e
  · cases e
  · rename_i f1 d1 h1
    obtain ⟨p1, u1⟩ := fillNodeLayer_paid h h1
    have u1 := u1 (by rw [new_numChildren, hml]; exact hm) more
    split at e
    · cases e
    · rename_i f2 d2 h2
      have p2 := hl _ _ _ _ p1.inv (p1.maxlinks.trans hml) h2
      have := finish_db e
      subst this
      have := p2.le
      exact ⟨p1.trans p2, by omega⟩

theorem layers_paid {m : Nat} (hm : 0 < m) (d : Nat) : ∀ (fsn fsn' : FSN) (db db' : DB), db.Inv →
    db.maxlinks = m → layers d fsn db = .ok (fsn', db') → Paid 0 db db' := by
  induction d with
  | zero => intro fsn fsn' db db' h _ e; cases e; exact Paid.refl h
  | succ d ih =>
    intro fsn fsn' db db' h hml e
    rw [fillTrickle_layers] at e
    split at e
    · cases e
    · rename_i f1 d1 h1
      have p1 := ih _ _ _ _ h hml h1
      split at e
      · cases e; exact p1
      · split at e
        · rename_i d2 hd; cases e
          exact p1.trans (done_eq_paid p1.inv hd)
        · rename_i d2 hd
          have p2 := done_eq_paid p1.inv hd
          exact (p1.trans p2).trans (repeatLoop_paid (subOf_paid hm ih) _ _ _ _ _ p2.inv
            (by rw [p2.maxlinks, p1.maxlinks, hml]) e)

theorem subTrickle_paid {m : Nat} (hm : 0 < m) (d : Nat) : SubPaid m (subTrickle d) :=
  subOf_paid hm (layers_paid hm d)

theorem growLoop_paid {m : Nat} (hm : 0 < m) (fuel : Nat) : ∀ (i : Nat) (fsn fsn' : FSN) (db db' : DB), db.Inv →
    db.maxlinks = m → growLoop fuel i fsn db = .ok (fsn', db') → Paid 0 db db' := by
  induction fuel with
  | zero =>
    intro i fsn fsn' db db' h _ e
    unfold growLoop at e
    split at e
    · rename_i d hd; cases e; exact done_eq_paid h hd
    · cases e
  | succ k ih =>
    intro i fsn fsn' db db' h hml e
    unfold growLoop at e
    split at e
    · rename_i d hd; cases e; exact done_eq_paid h hd
    · rename_i d hd
      have p1 := done_eq_paid h hd
      split at e
      · cases e
      · rename_i f2 d2 h2
        have p2 := repeatLoop_paid (subTrickle_paid hm i) _ _ _ _ _ p1.inv (p1.maxlinks.trans hml) h2
        exact (p1.trans p2).trans (ih _ _ _ _ _ p2.inv (by rw [p2.maxlinks, p1.maxlinks, hml]) e)

theorem boundedGrow_paid {m : Nat} (hm : 0 < m) (fuel : Nat) : ∀ (i : Nat) (fsn fsn' : FSN) (db db' : DB), db.Inv →
    db.maxlinks = m → boundedGrow fuel i fsn db = .ok (fsn', db') → Paid 0 db db' := by
  induction fuel with
  | zero => intro i fsn fsn' db db' h _ e; cases e; exact Paid.refl h
  | succ k ih =>
    intro i fsn fsn' db db' h hml e
    unfold boundedGrow at e
    split at e
    · rename_i d hd; cases e; exact done_eq_paid h hd
    · rename_i d hd
      have p1 := done_eq_paid h hd
      split at e
      · cases e
      · rename_i f2 d2 h2
        have p2 := repeatLoop_paid (subTrickle_paid hm i) _ _ _ _ _ p1.inv (p1.maxlinks.trans hml) h2
        exact (p1.trans p2).trans (ih _ _ _ _ _ p2.inv (by rw [p2.maxlinks, p1.maxlinks, hml]) e)

theorem addChild_numChildren {n n' : FSN} {c : Built} {sz : UInt64} {db db' : DB} (e : n.addChild c sz db = .ok (n', db')) :
    n'.numChildren = n.numChildren + 1 := by
  unfold FSN.addChild at e
  dsimp only at e
  split at e
  · cases e
  · cases e; simp [FSN.numChildren, FSNode.numChildren, FSNode.addBlockSize, FSNode.updateFilesize]

theorem fillLayerLoop_numChildren (k : Nat) : ∀ (fsn fsn' : FSN) (db db' : DB),
    DB.fillLayerLoop k fsn db = .ok (fsn', db') → fsn'.numChildren ≤ fsn.numChildren + k := by
  induction k with
  | zero => intro fsn fsn' db db' e; cases e; simp
  | succ k ih =>
    intro fsn fsn' db db' e
    unfold DB.fillLayerLoop at e
    split at e
    · cases e; omega
    · split at e
      · cases e
      · split at e
        · cases e
        · rename_i ha
          have := addChild_numChildren ha
          have := ih _ _ _ _ e
          omega

theorem fillNodeLayer_numChildren {fsn fsn' : FSN} {db db' : DB} (hle : fsn.numChildren ≤ db.maxlinks)
    (e : DB.fillNodeLayer fsn db = .ok (fsn', db')) : fsn'.numChildren ≤ db.maxlinks := by
  unfold DB.fillNodeLayer at e
  split at e
  · cases e
  · rename_i f d hf
    have := fillLayerLoop_numChildren _ _ _ _ _ hf
    split at e
    · cases e
    · rename_i hc
      cases e
      unfold FSN.commit at hc
      split at hc
      · cases hc
      · cases hc
        simp only [FSN.numChildren] at this hle ⊢
        omega

theorem heightL_mem {ls : List Link} {l : Link} (h : l ∈ ls) : Spec.height l.target + 1 ≤ Spec.heightL ls := by
  induction ls with
  | nil => cases h
  | cons a ls ih =>
    obtain ⟨nm, sz, n⟩ := a
    simp only [Spec.heightL]
    rcases List.mem_cons.mp h with rfl | h
    · simp only [Link.target]; omega
    · have := ih h; omega

theorem getChild_height {fsn c : FSN} {i : Nat} {g : Node → Bool} (e : fsn.getChild i g = .ok c) :
    Spec.heightL c.links + 1 ≤ Spec.heightL fsn.links := by
  unfold FSN.getChild at e
  split at e
  · cases e
  · rename_i l hl
    have := heightL_mem (List.mem_of_getElem? hl)
    split at e
    · split at e
      · rename_i d ls b ht
        unfold FSN.fromDag at e
        split at e
        · cases e
        · cases e
          rw [ht] at this
          exact this
      · cases e
    · cases e

/-- Refilling the last child: one block for the child itself. -/
theorem appendFillLastChild_paid {m : Nat} (hm : 0 < m)
    {rec : FSN → DB → Int → Except Err ((FSN × UInt64) × DB)}
    (hrec : ∀ fsn db md r db', db.Inv → db.maxlinks = m → rec fsn db md = .ok (r, db') → Paid (Spec.heightL fsn.links) db db')
    {fsn fsn' : FSN} {depth rn : Nat} {db db' : DB} (h : db.Inv) (hml : db.maxlinks = m)
    (e : appendFillLastChild rec fsn depth rn db = .ok (fsn', db')) :
    Paid (if fsn.numChildren ≤ m then 0 else Spec.heightL fsn.links) db db' := by
  unfold appendFillLastChild at e
  rw [hml] at e
  split at e
  · rename_i hle; cases e; rw [if_pos hle]; exact Paid.refl h
  · rename_i hle
    rw [if_neg hle]
    dsimp only at e
    split at e
    · cases e
    · rename_i lc hlc
      have hh := getChild_height hlc
      split at e
      · cases e
      · rename_i nc ns d1 h1
        have p1 := hrec _ _ _ _ _ h hml h1
        split at e
        · cases e
        · split at e
          · cases e
          · split at e
            · cases e
            · rename_i f2 d2 h2
              have p2 := p1.trans (addChild_paid p1.inv h2)
              split at e
              · exact (p2.trans (repeatLoop_paid (subTrickle_paid hm depth) _ _ _ _ _ p2.inv (p2.maxlinks.trans hml) e)).mono (by omega)
              · cases e; exact p2.mono (by omega)

theorem depthInfo_zero {fsn : FSN} {m : Nat} (h : (depthInfo fsn m).1 = 0) : fsn.numChildren < m := by
  unfold depthInfo at h
  dsimp only at h
  split at h
  · assumption
  · simp at h

/-- After the direct blocks: either nothing was done, or there is no child to refill. -/
theorem appendDirect_paid {fsn fsn' : FSN} {depth : Nat} {db db' : DB} (h : db.Inv)
    (e : appendDirect fsn db = .ok ((fsn', depth), db')) : Paid 0 db db' ∧ (fsn' = fsn ∨ fsn'.numChildren ≤ db.maxlinks) := by
  unfold appendDirect at e
  split at e
  · rename_i h0
    split at e
    · cases e
    · rename_i h1; cases e
      exact ⟨(fillNodeLayer_paid h h1).1, .inr (fillNodeLayer_numChildren (by have := depthInfo_zero h0; omega) h1)⟩
  · cases e; exact ⟨Paid.refl h, .inl rfl⟩

theorem appendRec_paid {m : Nat} (hm : 0 < m) (fuel : Nat) : ∀ (fsn : FSN) (db : DB) (md : Int)
    (r : FSN × UInt64) (db' : DB), db.Inv → db.maxlinks = m → appendRec fuel fsn db md = .ok (r, db') →
    Paid (Spec.heightL fsn.links) db db' := by
  induction fuel with
  | zero => intro _ _ _ _ _ _ _ e; cases e
  | succ k ih =>
    intro fsn db md r db' h hml e
    unfold appendRec at e
    split at e
    · cases e; exact (Paid.refl h).mono (by omega)
    · split at e
      · rename_i hd; cases e; exact (done_eq_paid h hd).mono (by omega)
      · rename_i d hd
        have p1 := done_eq_paid h hd
        dsimp only at e
        split at e
        · cases e
        · rename_i f2 dep d2 h2
          obtain ⟨p2, hf2⟩ := appendDirect_paid p1.inv h2
          replace p2 := p1.trans p2
          split at e
          · cases e; exact p2.mono (by omega)
          · split at e
            · cases e
            · rename_i f3 d3 h3
              have p3 : Paid (Spec.heightL fsn.links) d2 d3 := by
                refine (appendFillLastChild_paid hm ih p2.inv (p2.maxlinks.trans hml) h3).mono ?_
                rcases hf2 with rfl | hle
                · split <;> omega
                · rw [if_pos (by rw [← hml, ← p1.maxlinks]; exact hle)]; omega
              replace p3 := p2.trans p3
              have p4 := p3.trans (done_paid d3 p3.inv)
              split at e
              · cases e
              · rename_i f5 d5 h5
                cases e
                exact (p4.trans (boundedGrow_paid hm _ _ _ _ _ _ p4.inv (p4.maxlinks.trans hml) h5)).mono (by omega)

theorem appendRest_paid {m : Nat} (hm : 0 < m) {fuel h : Nat} {fsn : FSN} {depth rn : Nat} {db db' : DB} {n : Node}
    (hi : db.Inv) (hml : db.maxlinks = m) (e : appendRest fuel h fsn depth rn db = .ok (n, db')) :
    Paid (if fsn.numChildren ≤ m then 0 else Spec.heightL fsn.links) db db' := by
  unfold appendRest at e
  split at e
  · cases e
  · rename_i f1 d1 h1
    have p1 := appendFillLastChild_paid hm (appendRec_paid hm h) hi hml h1
    have p2 := p1.trans (done_paid d1 p1.inv)
    dsimp only at e
    split at e
    · cases e
    · rename_i f3 d3 h3
      have p3 := p2.trans (growLoop_paid hm _ _ _ _ _ _ p2.inv (p2.maxlinks.trans hml) h3)
      split at e
      · cases e
      · cases e; exact p3.mono (by omega)

/-- An Append stores at most two blocks per chunk and one per level of the base. -/
theorem append_paid {fuel h : Nat} {base n : Node} {db db' : DB} (hi : db.Inv) (hm : 0 < db.maxlinks)
    (e : append fuel h base db = .ok (n, db')) : Paid (Spec.height base) db db' := by
  unfold append at e
  split at e
  · rename_i d ls b
    split at e
    · cases e
    · rename_i fsn hfd
      have hls : fsn.links = ls := by
        unfold FSN.fromDag at hfd
        split at hfd
        · cases hfd
        · cases hfd; rfl
      dsimp only at e
      split at e
      · rename_i h0
        split at e
        · cases e
        · rename_i f1 d1 h1
          have p1 := (fillNodeLayer_paid hi h1).1
          have hle := fillNodeLayer_numChildren (by have := depthInfo_zero h0; omega) h1
          split at e
          · rename_i hd; cases e; exact (p1.trans (done_eq_paid p1.inv hd)).mono (by omega)
          · rename_i hd
            have p2 := p1.trans (done_eq_paid p1.inv hd)
            have p3 := appendRest_paid (p2.maxlinks ▸ hm) p2.inv rfl e
            rw [if_pos (by rw [p2.maxlinks]; exact hle)] at p3
            exact (p2.trans p3).mono (by omega)
      · refine (appendRest_paid hm hi rfl e).mono ?_
        rw [hls]
        simp only [Spec.height]
        split <;> omega
  · cases e

end Unixfs.Import.Trickle
