import Verif.Import.FailCrash
import Verif.Mod.Left
import Verif.Mod.DagLemmas

/-! # The order in which a modifier stores nodes (C74)

The definitions in this file belong to proofs; they model no code.
-/

namespace Unixfs.Mod
open Unixfs.Spec Unixfs.Import

variable {S : Node → Prop} {env : Env}

/-- The links lead to nodes that are there. -/
def Has (S : Node → Prop) (st : List Node) (ls : List Link) : Prop := ∀ l ∈ ls, l.target ∈ st ∨ S l.target

theorem Has.mono {st st' : List Node} {ls : List Link} (h : Has S st ls) (hg : st <+: st') : Has S st' ls :=
  fun l hl => (h l hl).imp (fun x => hg.subset x) id

/-- What was stored since is in order. -/
structure Went (S : Node → Prop) (s s' : Svc) : Prop where
  grew : s.stored <+: s'.stored
  first : ChildrenFirst S s'.stored

theorem Went.trans {a b c : Svc} (h : Went S a b) (h' : Went S b c) : Went S a c := ⟨h.grew.trans h'.grew, h'.first⟩

theorem Went.refl {a : Svc} (h : ChildrenFirst S a.stored) : Went S a a := ⟨List.prefix_rfl, h⟩

theorem add_went {s s' : Svc} {n : Node} {r : Except Err Unit} (h : s.add env n = (r, s')) (hf : ChildrenFirst S s.stored) (hn : Has S s.stored n.links) :
    Went S s s' ∧ (r = .ok () → n ∈ s'.stored) := by
  unfold Svc.add at h
  split at h <;> cases h
  · exact ⟨⟨List.prefix_append _ _, hf.snoc hn⟩, by simp⟩
  · exact ⟨⟨List.prefix_rfl, hf⟩, by simp⟩

theorem get_went {s s' : Svc} {n : Node} {r : Except Err Unit} (h : s.get env n = (r, s')) (hf : ChildrenFirst S s.stored) : Went S s s' := by
  unfold Svc.get at h
  cases h
  exact ⟨List.prefix_rfl, hf⟩

theorem Has.cons {st : List Node} {l : Link} {ls : List Link} (h : l.target ∈ st ∨ S l.target) (h' : Has S st ls) : Has S st (l :: ls) := by
  intro x hx
  rcases List.mem_cons.mp hx with rfl | hx
  · exact h
  · exact h' x hx

theorem Has.nil {st : List Node} : Has S st [] := by intro x hx; simp at hx

mutual
theorem modifyDag_went (hS : Complete S) : ∀ (n : Node) (off : UInt64) (buf : Bytes) (svc : Svc) (r : Except Err Node) (x : Node) (rest : Bytes) (svc' : Svc),
    modifyDag env n off buf svc = (r, x, rest, svc') → ChildrenFirst S svc.stored → Has S svc.stored n.links →
    Went S svc svc' ∧ Has S svc'.stored x.links ∧ ∀ k, r = .ok k → k ∈ svc'.stored
  | .proto d [] b, off, buf, svc, r, x, rest, svc', h, hf, hl => by
    unfold modifyDag at h
    split at h
    · cases h; exact ⟨.refl hf, hl, by simp⟩
    split at h
    · cases h; exact ⟨.refl hf, hl, by simp⟩
    simp only at h
    split at h
    · cases h; exact ⟨.refl hf, hl, by simp⟩
    split at h
    · next ha =>
      cases h
      have := (add_went ha hf Has.nil).1
      exact ⟨this, hl.mono this.grew, by simp⟩
    · next ha =>
      cases h
      have := add_went ha hf Has.nil
      exact ⟨this.1, hl.mono this.1.grew, by intro k hk; cases hk; exact this.2 rfl⟩
  | .raw d b, off, buf, svc, r, x, rest, svc', h, hf, hl => by
    unfold modifyDag at h
    split at h
    · cases h; exact ⟨.refl hf, hl, by simp⟩
    simp only at h
    split at h
    · next ha =>
      cases h
      have := (add_went ha hf Has.nil).1
      exact ⟨this, hl.mono this.grew, by simp⟩
    · next ha =>
      cases h
      have := add_went ha hf Has.nil
      exact ⟨this.1, hl.mono this.1.grew, by intro k hk; cases hk; exact this.2 rfl⟩
  | .other d, off, buf, svc, r, x, rest, svc', h, hf, hl => by
    unfold modifyDag at h
    cases h; exact ⟨.refl hf, hl, by simp⟩
  | .proto d (l :: ls) b, off, buf, svc, r, x, rest, svc', h, hf, hl => by
    unfold modifyDag at h
    split at h
    · cases h; exact ⟨.refl hf, hl, by simp⟩
    split at h
    · next hm =>
      cases h
      have := modifyLinks_went hS _ _ _ _ _ _ _ _ _ _ hm hf hl
      exact ⟨this.1, this.2, by simp⟩
    · next hm =>
      have s1 := modifyLinks_went hS _ _ _ _ _ _ _ _ _ _ hm hf hl
      split at h
      · next ha =>
        cases h
        have s2 := add_went ha s1.1.first s1.2
        exact ⟨s1.1.trans s2.1, s1.2.mono s2.1.grew, by simp⟩
      · next ha =>
        cases h
        have s2 := add_went ha s1.1.first s1.2
        exact ⟨s1.1.trans s2.1, s1.2.mono s2.1.grew, by intro k hk; cases hk; exact s2.2 rfl⟩
theorem modifyLinks_went (hS : Complete S) : ∀ (bss : List UInt64) (ls : List Link) (cur off : UInt64) (buf : Bytes) (svc : Svc) (r : Option Err) (ls' : List Link)
    (rest : Bytes) (svc' : Svc), modifyLinks env bss ls cur off buf svc = (r, ls', rest, svc') → ChildrenFirst S svc.stored → Has S svc.stored ls →
    Went S svc svc' ∧ Has S svc'.stored ls'
  | [], ls, cur, off, buf, svc, r, ls', rest, svc', h, hf, hl => by unfold modifyLinks at h; cases h; exact ⟨.refl hf, hl⟩
  | bs :: bss, [], cur, off, buf, svc, r, ls', rest, svc', h, hf, hl => by unfold modifyLinks at h; cases h; exact ⟨.refl hf, hl⟩
  | bs :: bss, .mk nm sz child :: ls, cur, off, buf, svc, r, ls', rest, svc', h, hf, hl => by
    have hc : child ∈ svc.stored ∨ S child := hl (.mk nm sz child) (by simp)
    have ht : Has S svc.stored ls := fun l h => hl l (by simp [h])
    unfold modifyLinks at h
    split at h
    · split at h
      · next hg => cases h; have s1 := get_went hg hf; exact ⟨s1, hl.mono s1.grew⟩
      · next hg =>
        have s1 := get_went hg hf
        split at h
        · next hm =>
          cases h
          have s2 := modifyDag_went hS child _ _ _ _ _ _ _ hm s1.first (s1.first.has hS (hc.imp (fun x => s1.grew.subset x) id))
          exact ⟨s1.trans s2.1, hl.mono (s1.trans s2.1).grew⟩
        · next hm =>
          have s2 := modifyDag_went hS child _ _ _ _ _ _ _ hm s1.first (s1.first.has hS (hc.imp (fun x => s1.grew.subset x) id))
          have s12 := s1.trans s2.1
          split at h
          · cases h
            exact ⟨s12, .cons (.inl (s2.2.2 _ rfl)) (ht.mono s12.grew)⟩
          · split at h
            next hr =>
            cases h
            have s3 := modifyLinks_went hS bss ls _ _ _ _ _ _ _ _ hr s12.first (ht.mono s12.grew)
            exact ⟨s12.trans s3.1, .cons (.inl (s3.1.grew.subset (s2.2.2 _ rfl))) s3.2⟩
    · split at h
      next hr =>
      cases h
      have s3 := modifyLinks_went hS bss ls _ _ _ _ _ _ _ _ hr hf ht
      exact ⟨s3.1, .cons (hc.imp (fun x => s3.1.grew.subset x) id) s3.2⟩
end

mutual
theorem dagTruncate_went (hS : Complete S) : ∀ (n : Node) (size : UInt64) (svc : Svc) (r : Except Err Node) (svc' : Svc),
    dagTruncate env n size svc = (r, svc') → ChildrenFirst S svc.stored → Has S svc.stored n.links →
    Went S svc svc' ∧ ∀ k, r = .ok k → Has S svc'.stored k.links
  | .proto d [] b, size, svc, r, svc', h, hf, hl => by
    unfold dagTruncate at h
    split at h
    · cases h; exact ⟨.refl hf, by simp⟩
    split at h
    · cases h; exact ⟨.refl hf, by simp⟩
    · cases h; exact ⟨.refl hf, by intro k hk; cases hk; exact Has.nil⟩
  | .raw d b, size, svc, r, svc', h, hf, hl => by
    unfold dagTruncate at h
    split at h
    · cases h; exact ⟨.refl hf, by simp⟩
    · cases h; exact ⟨.refl hf, by intro k hk; cases hk; exact Has.nil⟩
  | .other d, size, svc, r, svc', h, hf, hl => by
    unfold dagTruncate at h
    cases h; exact ⟨.refl hf, by simp⟩
  | .proto d (l :: ls) b, size, svc, r, svc', h, hf, hl => by
    unfold dagTruncate at h
    split at h
    · cases h; exact ⟨.refl hf, by simp⟩
    split at h
    · next hm =>
      cases h
      exact ⟨(truncLinks_went hS _ _ _ _ _ _ _ _ hm hf hl Has.nil).1, by simp⟩
    · next hm =>
      obtain ⟨s1, hk⟩ := truncLinks_went hS _ _ _ _ _ _ _ _ hm hf hl Has.nil
      obtain ⟨hk, hmd⟩ := hk _ _ _ rfl
      split at h
      · next ha =>
        cases h
        exact ⟨s1.trans (add_went ha s1.first hmd).1, by simp⟩
      · next ha =>
        have s2 := add_went ha s1.first hmd
        split at h
        · cases h; exact ⟨s1.trans s2.1, by simp⟩
        · cases h
          refine ⟨s1.trans s2.1, ?_⟩
          intro k he
          cases he
          intro x hx
          simp only [Node.links, List.mem_append, List.mem_singleton] at hx
          rcases hx with hx | rfl
          · exact (hk.mono s2.1.grew) x hx
          · exact .inl (by simpa [makeLink, Link.target] using s2.2 rfl)
theorem truncLinks_went (hS : Complete S) : ∀ (ls : List Link) (cur size : UInt64) (fs : FSNode) (kept : List Link) (svc : Svc)
    (r : Except Err (FSNode × List Link × Node)) (svc' : Svc),
    truncLinks env ls cur size fs kept svc = (r, svc') → ChildrenFirst S svc.stored → Has S svc.stored ls → Has S svc.stored kept →
    Went S svc svc' ∧ ∀ fs' kept' md, r = .ok (fs', kept', md) → Has S svc'.stored kept' ∧ Has S svc'.stored md.links
  | [], cur, size, fs, kept, svc, r, svc', h, hf, hl, hk => by unfold truncLinks at h; cases h; exact ⟨.refl hf, by simp⟩
  | .mk nm sz child :: ls, cur, size, fs, kept, svc, r, svc', h, hf, hl, hk => by
    have hc : child ∈ svc.stored ∨ S child := hl (.mk nm sz child) (by simp)
    have ht : Has S svc.stored ls := fun l h => hl l (by simp [h])
    unfold truncLinks at h
    split at h
    · next hg => cases h; exact ⟨get_went hg hf, by simp⟩
    · next hg =>
      have s1 := get_went hg hf
      split at h
      · cases h; exact ⟨s1, by simp⟩
      split at h
      · split at h
        · next hm =>
          cases h
          have s2 := dagTruncate_went hS child _ _ _ _ hm s1.first (s1.first.has hS (hc.imp (fun x => s1.grew.subset x) id))
          exact ⟨s1.trans s2.1, by simp⟩
        · next hm =>
          cases h
          have s2 := dagTruncate_went hS child _ _ _ _ hm s1.first (s1.first.has hS (hc.imp (fun x => s1.grew.subset x) id))
          refine ⟨s1.trans s2.1, ?_⟩
          intro fs' kept' md he
          cases he
          exact ⟨hk.mono (s1.trans s2.1).grew, s2.2 _ rfl⟩
      · have s2 := truncLinks_went hS ls _ _ _ _ _ _ _ h s1.first (ht.mono s1.grew) (by
          intro x hx
          rcases List.mem_append.mp hx with hx | hx
          · exact hk.mono s1.grew x hx
          · rw [List.mem_singleton] at hx
            subst hx
            exact hc.imp (fun x => s1.grew.subset x) id)
        exact ⟨s1.trans s2.1, s2.2⟩
end

/-- The invariant of a modifier. -/
structure MSafe (S : Node → Prop) (dm : DM) : Prop where
  first : ChildrenFirst S dm.svc.stored
  links : Has S dm.svc.stored dm.cur.links

/-- The invariant speaks of the current node and the store only. -/
theorem MSafe.of {dm dm' : DM} (h : MSafe S dm) (h1 : dm'.cur = dm.cur) (h2 : dm'.svc.stored = dm.svc.stored) : MSafe S dm' := by
  constructor
  · rw [h2]; exact h.first
  · rw [h1, h2]; exact h.links

theorem MSafe.went {dm dm' : DM} (h : MSafe S dm) (h1 : dm'.cur = dm.cur) (h2 : Went S dm.svc dm'.svc) : MSafe S dm' := by
  refine ⟨h2.first, ?_⟩
  rw [h1]; exact h.links.mono h2.grew

theorem fresh_safe {p : Params} {path : Option Bytes} {chunks : List Bytes} {fin : Option Err} {db : DB} (h : p.new path chunks fin = .ok db) : db.added = [] := by
  unfold Params.new at h
  dsimp only at h
  generalize (if p.noCopy = true then path.getD [] else []) = q at h
  split at h
  · cases h
  · injection h with h; subst h; rfl

theorem ChildrenFirst.append {a b : List Node} (ha : ChildrenFirst S a) (hb : ChildrenFirst (fun x => x ∈ a ∨ S x) b) : ChildrenFirst S (a ++ b) := by
  intro pre x post he l hl
  rcases List.append_eq_append_iff.mp he with ⟨c, h1, h2⟩ | ⟨c, h1, h2⟩
  · rcases hb c x post h2 l hl with h | h | h
    · exact .inl (by rw [h1]; simp [h])
    · exact .inl (by rw [h1]; simp [h])
    · exact .inr h
  · cases c with
    | nil =>
      simp only [List.append_nil, List.nil_append] at h1 h2
      subst h1
      rcases hb [] x post h2.symm l hl with h | h | h
      · simp at h
      · exact .inl h
      · exact .inr h
    | cons y c =>
      simp only [List.cons_append, List.cons.injEq] at h2
      obtain ⟨rfl, h2⟩ := h2
      exact ha pre x c h1 l hl

theorem appendData_went (hS : Complete S) {dm : DM} {chunks : List Bytes} {fin : Option Err} {r : Except Err Node} {svc' : Svc}
    (h : dm.appendData env chunks fin = (r, svc')) (hm : MSafe S dm) :
    Went S dm.svc svc' ∧ ∀ k, r = .ok k → Has S svc'.stored k.links := by
  -- relative to what is stored already
  have hS' : Complete (fun x => x ∈ dm.svc.stored ∨ S x) := by
    intro x y hx hr
    induction hr with
    | refl => exact hx
    | step hl _ ih => exact ih (hm.first.has hS hx _ hl)
  cases r with
  | error e =>
    refine ⟨?_, by simp⟩
    rcases appendData_error h with ⟨h1, _⟩ | ⟨db', h1, h2⟩
    · rw [h1]; exact .refl hm.first
    · rw [h2]
      have := Trickle.appendF_safe hS' h1 ⟨by simp only [DB.ids, DM.builder, List.map_nil]; exact ChildrenFirst.nil, fun l hl => .inr (hm.links l hl)⟩
      exact ⟨List.prefix_append _ _, ChildrenFirst.append hm.first this.first⟩
  | ok k =>
  unfold DM.appendData at h
  split at h
  · cases h
  split at h
  · cases h
  · next db hnew =>
    split at h
    · cases h
    · next n' db' hA =>
      cases h
      have := Trickle.append_safe hS' hA ⟨by simp only [DB.ids, fresh_safe hnew]; exact ChildrenFirst.nil, fun l hl => .inr (hm.links l hl)⟩
      refine ⟨⟨List.prefix_append _ _, ChildrenFirst.append hm.first this.safe.first⟩, ?_⟩
      intro k hk
      cases hk
      intro l hl
      rcases this.safe.links l hl with h | h | h
      · exact .inl (List.mem_append.mpr (.inr h))
      · exact .inl (List.mem_append.mpr (.inl h))
      · exact .inr h

theorem expandSparse_safe (hS : Complete S) (hd : AppendsStored env) {dm dm' : DM} {size : Int} {r : Except Err Unit} (h : dm.expandSparse env size = (r, dm'))
    (hm : MSafe S dm) : MSafe S dm' := by
  unfold DM.expandSparse at h
  split at h
  · next ha =>
    cases h
    have s := appendData_went hS ha hm
    refine ⟨s.1.first, ?_⟩
    dsimp only
    rw [left_zeros hd ha]
    exact hm.links.mono s.1.grew
  · next ha =>
    have s := appendData_went hS ha hm
    split at h
    next hadd =>
    cases h
    have s2 := add_went hadd s.1.first (s.2 _ rfl)
    exact ⟨s2.1.first, (s.2 _ rfl).mono s2.1.grew⟩

theorem syncTail_safe (hS : Complete S) {dm dm' : DM} {k : Nat} {r : Except Err Unit} (h : dm.syncTail env k = (r, dm')) (hm : MSafe S dm) : MSafe S dm' := by
  unfold DM.syncTail at h
  simp only at h
  split at h
  · cases h; exact hm.of rfl rfl
  split at h
  · next ha =>
    cases h
    exact ⟨(appendData_went hS ha hm).1.first, Has.nil⟩
  · next ha =>
    have s := appendData_went hS ha hm
    split at h
    · next hadd =>
      cases h
      have s2 := add_went hadd s.1.first (s.2 _ rfl)
      exact ⟨s2.1.first, (s.2 _ rfl).mono s2.1.grew⟩
    · next hadd =>
      cases h
      have s2 := add_went hadd s.1.first (s.2 _ rfl)
      exact ⟨s2.1.first, (s.2 _ rfl).mono s2.1.grew⟩

theorem syncModify_safe (hS : Complete S) {dm dm' : DM} {k : Nat} {r : Except Err Unit} (h : dm.syncModify env k = (r, dm')) (hm : MSafe S dm) : MSafe S dm' := by
  unfold DM.syncModify at h
  split at h
  · next hmd =>
    cases h
    have s := modifyDag_went hS _ _ _ _ _ _ _ _ hmd hm.first hm.links
    exact ⟨s.1.first, s.2.1⟩
  · next hmd =>
    have s := modifyDag_went hS _ _ _ _ _ _ _ _ hmd hm.first hm.links
    split at h
    · next hg =>
      cases h
      exact ⟨(get_went hg s.1.first).first, Has.nil⟩
    · next hg =>
      have s2 := get_went hg s.1.first
      refine syncTail_safe hS h ⟨s2.first, ?_⟩
      exact Has.mono (s.1.first.has hS (.inl (s.2.2 _ rfl))) s2.grew

theorem sync_safe (hS : Complete S) (hd : AppendsStored env) {dm dm' : DM} {r : Except Err Unit} (h : dm.sync env = (r, dm')) (hm : MSafe S dm) : MSafe S dm' := by
  unfold DM.sync at h
  split at h
  · cases h; exact hm
  simp only at h
  split at h
  · cases h; exact hm.of rfl rfl
  split at h
  · split at h
    · next he => cases h; exact expandSparse_safe hS hd he (hm.of rfl rfl)
    · next he => exact syncModify_safe hS h (expandSparse_safe hS hd he (hm.of rfl rfl))
  · exact syncModify_safe hS h (hm.of rfl rfl)

theorem write_safe (hS : Complete S) (hd : AppendsStored env) {dm : DM} {b : Bytes} (hm : MSafe S dm) : MSafe S (dm.write env b).2 := by
  unfold DM.write
  simp only
  split
  · split
    · next he => exact sync_safe hS hd he (hm.of rfl rfl)
    · next he => exact sync_safe hS hd he (hm.of rfl rfl)
  · exact hm.of rfl rfl

theorem writeAt_safe (hS : Complete S) (hd : AppendsStored env) {dm : DM} {b : Bytes} {off : Int} (hm : MSafe S dm) : MSafe S (dm.writeAt env b off).2 := by
  unfold DM.writeAt
  split
  · split
    · exact write_safe hS hd (hm.of rfl rfl)
    · exact write_safe hS hd hm
  split
  · split
    · exact hm
    · next sz _ =>
      have : ∀ p : Except Err Unit × DM, (if off > sz then dm.expandSparse env (i64 (off - sz)) else (.ok (), dm)) = p → MSafe S p.2 := by
        intro p hp
        split at hp
        · exact expandSparse_safe (r := p.1) hS hd hp hm
        · subst hp; exact hm
      split
      · next he => exact this _ he
      · next he =>
        have h1 := this _ he
        split
        · next hs => exact sync_safe hS hd hs h1
        · next hs => exact write_safe hS hd ((sync_safe hS hd hs h1).of rfl rfl)
  · exact write_safe hS hd hm

theorem readOpen_safe {dm : DM} {pos : Int} (hm : MSafe S dm) : MSafe S (dm.readOpen env pos).2 := by
  unfold DM.readOpen
  split
  · exact hm.of rfl rfl
  · simp only
    repeat' split
    all_goals exact hm.of rfl rfl

theorem readN_safe (hS : Complete S) (hd : AppendsStored env) {dm : DM} {k : Nat} (hm : MSafe S dm) : MSafe S (dm.readN env k).2 := by
  unfold DM.readN
  split
  · next hs => exact sync_safe hS hd hs hm
  · next dm1 hs =>
    have h1 := sync_safe hS hd hs hm
    have : ∀ p, DM.readPrep env dm1 = p → MSafe S p.2 := by
      intro p hp
      unfold DM.readPrep at hp
      split at hp
      · subst hp; exact h1
      · subst hp; exact readOpen_safe h1
    split
    · next he => exact this _ he
    · next he => exact (this _ he).of rfl rfl

theorem seekTail_safe (hS : Complete S) (hd : AppendsStored env) {dm : DM} {sz : Int} {new : UInt64} {pos off wh : Int} (hm : MSafe S dm) :
    MSafe S (dm.seekTail env sz new pos off wh).2 := by
  unfold DM.seekTail
  have : ∀ p : Except Err Unit × DM, (if pos > sz then dm.expandSparse env (i64 (pos - sz)) else (.ok (), dm)) = p → MSafe S p.2 := by
    intro p hp
    split at hp
    · exact expandSparse_safe (r := p.1) hS hd hp hm
    · subst hp; exact hm
  split
  · next he => exact this _ he
  · next he =>
    split
    · exact (this _ he).of rfl rfl
    · exact (this _ he).of rfl rfl

theorem seek_safe (hS : Complete S) (hd : AppendsStored env) {dm : DM} {off wh : Int} (hm : MSafe S dm) : MSafe S (dm.seek env off wh).2 := by
  unfold DM.seek
  split
  · next hs => exact sync_safe hS hd hs hm
  · next dm1 hs =>
    have h1 := sync_safe hS hd hs hm
    split
    · exact h1
    · split
      · exact h1
      · exact seekTail_safe hS hd h1

theorem truncate_safe (hS : Complete S) (hd : AppendsStored env) {dm : DM} {size : Int} (hm : MSafe S dm) : MSafe S (dm.truncate env size).2 := by
  unfold DM.truncate
  split
  · next hs => exact sync_safe hS hd hs hm
  · next dm1 hs =>
    have h1 := sync_safe hS hd hs hm
    split
    · exact h1
    split
    · exact h1
    split
    · exact expandSparse_safe (r := _) hS hd rfl h1
    split
    · next ht => exact h1.went rfl (dagTruncate_went hS _ _ _ _ _ ht h1.first h1.links).1
    · next ht =>
      have s := dagTruncate_went hS _ _ _ _ _ ht h1.first h1.links
      split
      · next ha =>
        have s2 := (add_went ha s.1.first (s.2 _ rfl)).1
        refine ⟨s2.first, ?_⟩
        dsimp only
        split
        · exact (s.2 _ rfl).mono s2.grew
        · exact h1.links.mono (s.1.trans s2).grew
      · next ha =>
        have s2 := (add_went ha s.1.first (s.2 _ rfl)).1
        exact ⟨s2.first, (s.2 _ rfl).mono s2.grew⟩

theorem step_safe (hS : Complete S) (hd : AppendsStored env) {dm : DM} (op : MOp) (hm : MSafe S dm) : MSafe S (dm.step env op).2 := by
  cases op with
  | write b => exact write_safe hS hd hm
  | writeAt b off => exact writeAt_safe hS hd hm
  | read k => exact readN_safe hS hd hm
  | seek off wh => exact seek_safe hS hd hm
  | truncate s => exact truncate_safe hS hd hm
  | sync => exact sync_safe (r := _) hS hd rfl hm
  | getNode =>
    have : MSafe S (dm.getNode env).2 := by
      unfold DM.getNode
      split
      · next hs => exact sync_safe hS hd hs hm
      · next hs => exact sync_safe hS hd hs hm
    simp only [DM.step]
    split
    · next h => rw [h] at this; exact this
    · next h => rw [h] at this; exact this
  | size => exact hm
  | hasChanges => exact hm

theorem run_safe (hS : Complete S) (hd : AppendsStored env) : ∀ (ops : List MOp) (dm : DM), MSafe S dm → MSafe S (dm.run env ops).2
  | [], _, hm => hm
  | op :: ops, _, hm => run_safe hS hd ops _ (step_safe hS hd op hm)

end Unixfs.Mod
