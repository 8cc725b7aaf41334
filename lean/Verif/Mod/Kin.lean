import Verif.Import.FailKin
import Verif.Mod.Left
import Verif.Mod.Crash

/-! # The CID builders of the nodes that a modifier makes (C95)

The definitions in this file belong to proofs; they model no code.
-/

namespace Unixfs.Mod
open Unixfs.Spec Unixfs.Import

variable {T : Node → Prop} {B : Builder} {raw st : Bool} {env : Env}

/-- What was stored. -/
def All (T : Node → Prop) (s : Svc) : Prop := ∀ x ∈ s.stored, T x

theorem add_all {s s' : Svc} {n : Node} {r : Except Err Unit} (h : s.add env n = (r, s')) (hs : All T s) (hn : T n) : All T s' := by
  unfold Svc.add at h
  split at h <;> cases h
  · intro x hx
    rcases List.mem_append.mp hx with hx | hx
    · exact hs x hx
    · rw [List.mem_singleton] at hx; subst hx; exact hn
  · exact hs

theorem get_all {s s' : Svc} {n : Node} {r : Except Err Unit} (h : s.get env n = (r, s')) (hs : All T s) : All T s' := by
  unfold Svc.get at h
  cases h
  exact hs

theorem all_cons {l : Link} {ls : List Link} (h : T l.target) (h' : ∀ x ∈ ls, T x.target) : ∀ x ∈ l :: ls, T x.target := by
  intro x hx
  rcases List.mem_cons.mp hx with rfl | hx
  · exact h
  · exact h' x hx

mutual
theorem modifyDag_kin (hF : Family T B raw st) : ∀ (n : Node) (off : UInt64) (buf : Bytes) (svc : Svc) (r : Except Err Node) (x : Node) (rest : Bytes) (svc' : Svc),
    modifyDag env n off buf svc = (r, x, rest, svc') → All T svc → T n → All T svc' ∧ T x ∧ ∀ k, r = .ok k → T k
  | .proto d [] b, off, buf, svc, r, x, rest, svc', h, hs, hn => by
    have hl : ∀ d', T (.proto d' [] b) := fun d' => by rw [(hF.inv _ _ _ hn).1]; exact hF.proto _ _ (hF.same _ _ _ hn) (by simp)
    unfold modifyDag at h
    split at h
    · cases h; exact ⟨hs, hn, by simp⟩
    split at h
    · cases h; exact ⟨hs, hn, by simp⟩
    simp only at h
    split at h
    · cases h; exact ⟨hs, hn, by simp⟩
    split at h
    · next ha => cases h; exact ⟨add_all ha hs (hl _), hn, by simp⟩
    · next ha => cases h; exact ⟨add_all ha hs (hl _), hn, by intro k hk; cases hk; exact hl _⟩
  | .raw d b, off, buf, svc, r, x, rest, svc', h, hs, hn => by
    unfold modifyDag at h
    split at h
    · cases h; exact ⟨hs, hn, by simp⟩
    simp only at h
    split at h
    · next ha => cases h; exact ⟨add_all ha hs (hF.edit _ _ _ hn), hn, by simp⟩
    · next ha => cases h; exact ⟨add_all ha hs (hF.edit _ _ _ hn), hn, by intro k hk; cases hk; exact hF.edit _ _ _ hn⟩
  | .other d, off, buf, svc, r, x, rest, svc', h, hs, hn => by
    unfold modifyDag at h
    cases h; exact ⟨hs, hn, by simp⟩
  | .proto d (l :: ls) b, off, buf, svc, r, x, rest, svc', h, hs, hn => by
    obtain ⟨hb, hl⟩ := hF.inv _ _ _ hn
    unfold modifyDag at h
    split at h
    · cases h; exact ⟨hs, hn, by simp⟩
    split at h
    · next hm =>
      cases h
      have := modifyLinks_kin hF _ _ _ _ _ _ _ _ _ _ hm hs hl
      exact ⟨this.1, by rw [hb]; exact hF.proto _ _ (fun _ => this.2.2 (by simp)) this.2.1, by simp⟩
    · next ls' _ _ hm =>
      have s1 := modifyLinks_kin hF _ _ _ _ _ _ _ _ _ _ hm hs hl
      have hk : T (.proto d ls' b) := by rw [hb]; exact hF.proto _ _ (fun _ => s1.2.2 (by simp)) s1.2.1
      split at h
      · next ha => cases h; exact ⟨add_all ha s1.1 hk, hk, by simp⟩
      · next ha => cases h; exact ⟨add_all ha s1.1 hk, hk, by intro k he; cases he; exact hk⟩
theorem modifyLinks_kin (hF : Family T B raw st) : ∀ (bss : List UInt64) (ls : List Link) (cur off : UInt64) (buf : Bytes) (svc : Svc) (r : Option Err) (ls' : List Link)
    (rest : Bytes) (svc' : Svc), modifyLinks env bss ls cur off buf svc = (r, ls', rest, svc') → All T svc → (∀ l ∈ ls, T l.target) →
    All T svc' ∧ (∀ l ∈ ls', T l.target) ∧ (ls ≠ [] → ls' ≠ [])
  | [], ls, cur, off, buf, svc, r, ls', rest, svc', h, hs, hl => by unfold modifyLinks at h; cases h; exact ⟨hs, hl, id⟩
  | bs :: bss, [], cur, off, buf, svc, r, ls', rest, svc', h, hs, hl => by unfold modifyLinks at h; cases h; exact ⟨hs, hl, id⟩
  | bs :: bss, .mk nm sz child :: ls, cur, off, buf, svc, r, ls', rest, svc', h, hs, hl => by
    have hc : T child := hl (.mk nm sz child) (by simp)
    have ht : ∀ l ∈ ls, T l.target := fun l h => hl l (by simp [h])
    unfold modifyLinks at h
    split at h
    · split at h
      · next hg => cases h; exact ⟨get_all hg hs, hl, id⟩
      · next hg =>
        have s1 := get_all hg hs
        split at h
        · next hm =>
          cases h
          have s2 := modifyDag_kin hF child _ _ _ _ _ _ _ hm s1 hc
          exact ⟨s2.1, hl, id⟩
        · next hm =>
          have s2 := modifyDag_kin hF child _ _ _ _ _ _ _ hm s1 hc
          split at h
          · cases h
            exact ⟨s2.1, all_cons (s2.2.2 _ rfl) ht, by simp⟩
          · split at h
            next hr =>
            cases h
            have s3 := modifyLinks_kin hF bss ls _ _ _ _ _ _ _ _ hr s2.1 ht
            exact ⟨s3.1, all_cons (s2.2.2 _ rfl) s3.2.1, by simp⟩
    · split at h
      next hr =>
      cases h
      have s3 := modifyLinks_kin hF bss ls _ _ _ _ _ _ _ _ hr hs ht
      exact ⟨s3.1, all_cons hc s3.2.1, by simp⟩
end

mutual
theorem dagTruncate_kin (hF : Family T B raw st) : ∀ (n : Node) (size : UInt64) (svc : Svc) (r : Except Err Node) (svc' : Svc),
    dagTruncate env n size svc = (r, svc') → All T svc → T n → All T svc' ∧ ∀ k, r = .ok k → T k
  | .proto d [] b, size, svc, r, svc', h, hs, hn => by
    unfold dagTruncate at h
    split at h
    · cases h; exact ⟨hs, by simp⟩
    split at h
    · cases h; exact ⟨hs, by simp⟩
    · cases h
      refine ⟨hs, ?_⟩
      intro k hk
      cases hk
      rw [(hF.inv _ _ _ hn).1]; exact hF.proto _ _ (hF.same _ _ _ hn) (by simp)
  | .raw d b, size, svc, r, svc', h, hs, hn => by
    unfold dagTruncate at h
    split at h
    · cases h; exact ⟨hs, by simp⟩
    · cases h; exact ⟨hs, by intro k hk; cases hk; exact hF.edit _ _ _ hn⟩
  | .other d, size, svc, r, svc', h, hs, hn => by
    unfold dagTruncate at h
    cases h; exact ⟨hs, by simp⟩
  | .proto d (l :: ls) b, size, svc, r, svc', h, hs, hn => by
    obtain ⟨hb, hl⟩ := hF.inv _ _ _ hn
    unfold dagTruncate at h
    split at h
    · cases h; exact ⟨hs, by simp⟩
    split at h
    · next hm =>
      cases h
      exact ⟨(truncLinks_kin hF _ _ _ _ _ _ _ _ hm hs hl (by simp)).1, by simp⟩
    · next hm =>
      obtain ⟨s1, hk⟩ := truncLinks_kin hF _ _ _ _ _ _ _ _ hm hs hl (by simp)
      obtain ⟨hk, hmd⟩ := hk _ _ _ rfl
      split at h
      · next ha => cases h; exact ⟨add_all ha s1 hmd, by simp⟩
      · next ha =>
        have s2 := add_all ha s1 hmd
        split at h
        · cases h; exact ⟨s2, by simp⟩
        · cases h
          refine ⟨s2, ?_⟩
          intro k he
          cases he
          rw [hb]
          refine hF.proto _ _ (by simp) ?_
          intro x hx
          simp only [List.mem_append, List.mem_singleton] at hx
          rcases hx with hx | rfl
          · exact hk x hx
          · simpa [makeLink, Link.target] using hmd
theorem truncLinks_kin (hF : Family T B raw st) : ∀ (ls : List Link) (cur size : UInt64) (fs : FSNode) (kept : List Link) (svc : Svc)
    (r : Except Err (FSNode × List Link × Node)) (svc' : Svc),
    truncLinks env ls cur size fs kept svc = (r, svc') → All T svc → (∀ l ∈ ls, T l.target) → (∀ l ∈ kept, T l.target) →
    All T svc' ∧ ∀ fs' kept' md, r = .ok (fs', kept', md) → (∀ l ∈ kept', T l.target) ∧ T md
  | [], cur, size, fs, kept, svc, r, svc', h, hs, hl, hk => by unfold truncLinks at h; cases h; exact ⟨hs, by simp⟩
  | .mk nm sz child :: ls, cur, size, fs, kept, svc, r, svc', h, hs, hl, hk => by
    have hc : T child := hl (.mk nm sz child) (by simp)
    have ht : ∀ l ∈ ls, T l.target := fun l h => hl l (by simp [h])
    unfold truncLinks at h
    split at h
    · next hg => cases h; exact ⟨get_all hg hs, by simp⟩
    · next hg =>
      have s1 := get_all hg hs
      split at h
      · cases h; exact ⟨s1, by simp⟩
      split at h
      · split at h
        · next hm =>
          cases h
          exact ⟨(dagTruncate_kin hF child _ _ _ _ hm s1 hc).1, by simp⟩
        · next hm =>
          cases h
          have s2 := dagTruncate_kin hF child _ _ _ _ hm s1 hc
          refine ⟨s2.1, ?_⟩
          intro fs' kept' md he
          cases he
          exact ⟨hk, s2.2 _ rfl⟩
      · exact truncLinks_kin hF ls _ _ _ _ _ _ _ h s1 ht (by
          intro x hx
          rcases List.mem_append.mp hx with hx | hx
          · exact hk x hx
          · rw [List.mem_singleton] at hx
            subst hx
            exact hc)
end

/-- The invariant of a modifier. -/
structure MKin (T : Node → Prop) (B : Builder) (raw : Bool) (dm : DM) : Prop where
  pfx : dm.pfx = B
  raws : dm.rawLeaves = raw
  cur : T dm.cur
  all : All T dm.svc

/-- The invariant speaks of the configuration, the current node and the store only. -/
theorem MKin.of {dm dm' : DM} (h : MKin T B raw dm) (h1 : dm'.cur = dm.cur) (h2 : dm'.svc.stored = dm.svc.stored) (h3 : dm'.pfx = dm.pfx)
    (h4 : dm'.rawLeaves = dm.rawLeaves) : MKin T B raw dm' :=
  ⟨h3.trans h.pfx, h4.trans h.raws, by rw [h1]; exact h.cur, by unfold All; rw [h2]; exact h.all⟩

theorem fresh_kin {p : Params} {path : Option Bytes} {chunks : List Bytes} {fin : Option Err} {db : DB} (h : p.new path chunks fin = .ok db) :
    db.cidBuilder = p.cidBuilder ∧ db.rawLeaves = p.rawLeaves ∧ db.maxlinks = p.maxlinks := by
  unfold Params.new at h
  dsimp only at h
  generalize (if p.noCopy = true then path.getD [] else []) = q at h
  split at h
  · cases h
  · injection h with h; subst h; exact ⟨rfl, rfl, rfl⟩

theorem builder_kin {dm : DM} (hm : MKin T B raw dm) (chunks : List Bytes) (fin : Option Err) : DKin T B raw (dm.builder env chunks fin) :=
  ⟨by rw [← hm.pfx]; rfl, hm.raws, show 0 < defaultLinksPerBlock by decide, by simp [DB.ids, DM.builder]⟩

theorem appendData_kin (hF : Family T B raw st) {dm : DM} {chunks : List Bytes} {fin : Option Err} {r : Except Err Node} {svc' : Svc}
    (h : dm.appendData env chunks fin = (r, svc')) (hm : MKin T B raw dm) : All T svc' ∧ (∀ k, r = .ok k → T k) ∧ ∀ e, r = .error e → T (dm.appendLeft env chunks fin).1 := by
  have hnew : ∀ e svc', dm.appendData env chunks fin = (.error e, svc') → All T svc' ∧ T (dm.appendLeft env chunks fin).1 := by
    intro e svc' h
    rcases appendData_error h with ⟨h1, h2, _⟩ | ⟨db', h1, h2⟩
    · rw [h1, h2]; exact ⟨hm.all, hm.cur⟩
    · obtain ⟨k1, k2⟩ := Trickle.appendF_kin hF h1 hm.cur (builder_kin hm chunks fin)
      refine ⟨?_, k1⟩
      rw [h2]
      intro x hx
      rcases List.mem_append.mp hx with hx | hx
      · exact hm.all x hx
      · exact k2.all x hx
  cases r with
  | error e => exact ⟨(hnew e _ h).1, by simp, fun _ _ => (hnew e _ h).2⟩
  | ok k =>
    refine and_assoc.mp ⟨?_, by simp⟩
    unfold DM.appendData at h
    split at h
    · cases h
    split at h
    · cases h
    · next db hnew =>
      split at h
      · cases h
      · next n' db' hA =>
        cases h
        have hc := fresh_kin hnew
        have := Trickle.append_kin hF hA hm.cur ⟨by rw [← hm.pfx]; exact hc.1, by rw [← hm.raws]; exact hc.2.1, by dsimp only; rw [hc.2.2]; exact (show 0 < defaultLinksPerBlock by decide), by simp [DB.ids, fresh_safe hnew]⟩
        refine ⟨?_, by intro k hk; cases hk; exact this.1⟩
        intro x hx
        rcases List.mem_append.mp hx with hx | hx
        · exact hm.all x hx
        · exact this.2.all x hx

theorem expandSparse_kin (hF : Family T B raw st) {dm dm' : DM} {size : Int} {r : Except Err Unit} (h : dm.expandSparse env size = (r, dm'))
    (hm : MKin T B raw dm) : MKin T B raw dm' := by
  unfold DM.expandSparse at h
  split at h
  · next ha =>
    cases h
    have s := appendData_kin hF ha hm
    exact ⟨hm.pfx, hm.raws, s.2.2 _ rfl, s.1⟩
  · next ha =>
    have s := appendData_kin hF ha hm
    split at h
    next hadd =>
    cases h
    exact ⟨hm.pfx, hm.raws, s.2.1 _ rfl, add_all hadd s.1 (s.2.1 _ rfl)⟩

theorem syncTail_kin (hF : Family T B raw st) {dm dm' : DM} {k : Nat} {r : Except Err Unit} (h : dm.syncTail env k = (r, dm')) (hm : MKin T B raw dm) : MKin T B raw dm' := by
  unfold DM.syncTail at h
  simp only at h
  split at h
  · cases h; exact hm.of rfl rfl rfl rfl
  split at h
  · next ha =>
    cases h
    exact ⟨hm.pfx, hm.raws, hF.other _, (appendData_kin hF ha hm).1⟩
  · next ha =>
    have s := appendData_kin hF ha hm
    split at h
    · next hadd =>
      cases h
      exact ⟨hm.pfx, hm.raws, s.2.1 _ rfl, add_all hadd s.1 (s.2.1 _ rfl)⟩
    · next hadd =>
      cases h
      exact ⟨hm.pfx, hm.raws, s.2.1 _ rfl, add_all hadd s.1 (s.2.1 _ rfl)⟩

theorem syncModify_kin (hF : Family T B raw st) {dm dm' : DM} {k : Nat} {r : Except Err Unit} (h : dm.syncModify env k = (r, dm')) (hm : MKin T B raw dm) : MKin T B raw dm' := by
  unfold DM.syncModify at h
  split at h
  · next hmd =>
    cases h
    have s := modifyDag_kin hF _ _ _ _ _ _ _ _ hmd hm.all hm.cur
    exact ⟨hm.pfx, hm.raws, s.2.1, s.1⟩
  · next hmd =>
    have s := modifyDag_kin hF _ _ _ _ _ _ _ _ hmd hm.all hm.cur
    split at h
    · next hg =>
      cases h
      exact ⟨hm.pfx, hm.raws, hF.other _, get_all hg s.1⟩
    · next hg => exact syncTail_kin hF h ⟨hm.pfx, hm.raws, s.2.2 _ rfl, get_all hg s.1⟩

theorem sync_kin (hF : Family T B raw st) {dm dm' : DM} {r : Except Err Unit} (h : dm.sync env = (r, dm')) (hm : MKin T B raw dm) : MKin T B raw dm' := by
  unfold DM.sync at h
  split at h
  · cases h; exact hm
  simp only at h
  split at h
  · cases h; exact hm.of rfl rfl rfl rfl
  split at h
  · split at h
    · next he => cases h; exact expandSparse_kin hF he (hm.of rfl rfl rfl rfl)
    · next he => exact syncModify_kin hF h (expandSparse_kin hF he (hm.of rfl rfl rfl rfl))
  · exact syncModify_kin hF h (hm.of rfl rfl rfl rfl)

theorem write_kin (hF : Family T B raw st) {dm : DM} {b : Bytes} (hm : MKin T B raw dm) : MKin T B raw (dm.write env b).2 := by
  unfold DM.write
  simp only
  split
  · split
    · next he => exact sync_kin hF he (hm.of rfl rfl rfl rfl)
    · next he => exact sync_kin hF he (hm.of rfl rfl rfl rfl)
  · exact hm.of rfl rfl rfl rfl

theorem writeAt_kin (hF : Family T B raw st) {dm : DM} {b : Bytes} {off : Int} (hm : MKin T B raw dm) : MKin T B raw (dm.writeAt env b off).2 := by
  unfold DM.writeAt
  split
  · split
    · exact write_kin hF (hm.of rfl rfl rfl rfl)
    · exact write_kin hF hm
  split
  · split
    · exact hm
    · next sz _ =>
      have : ∀ p : Except Err Unit × DM, (if off > sz then dm.expandSparse env (i64 (off - sz)) else (.ok (), dm)) = p → MKin T B raw p.2 := by
        intro p hp
        split at hp
        · exact expandSparse_kin (r := p.1) hF hp hm
        · subst hp; exact hm
      split
      · next he => exact this _ he
      · next he =>
        have h1 := this _ he
        split
        · next hs => exact sync_kin hF hs h1
        · next hs => exact write_kin hF ((sync_kin hF hs h1).of rfl rfl rfl rfl)
  · exact write_kin hF hm

theorem readOpen_kin {dm : DM} {pos : Int} (hm : MKin T B raw dm) : MKin T B raw (dm.readOpen env pos).2 := by
  unfold DM.readOpen
  split
  · exact hm.of rfl rfl rfl rfl
  · simp only
    repeat' split
    all_goals exact hm.of rfl rfl rfl rfl

theorem readN_kin (hF : Family T B raw st) {dm : DM} {k : Nat} (hm : MKin T B raw dm) : MKin T B raw (dm.readN env k).2 := by
  unfold DM.readN
  split
  · next hs => exact sync_kin hF hs hm
  · next dm1 hs =>
    have h1 := sync_kin hF hs hm
    have : ∀ p, DM.readPrep env dm1 = p → MKin T B raw p.2 := by
      intro p hp
      unfold DM.readPrep at hp
      split at hp
      · subst hp; exact h1
      · subst hp; exact readOpen_kin h1
    split
    · next he => exact this _ he
    · next he => exact (this _ he).of rfl rfl rfl rfl

theorem seekTail_kin (hF : Family T B raw st) {dm : DM} {sz : Int} {new : UInt64} {pos off wh : Int} (hm : MKin T B raw dm) :
    MKin T B raw (dm.seekTail env sz new pos off wh).2 := by
  unfold DM.seekTail
  have : ∀ p : Except Err Unit × DM, (if pos > sz then dm.expandSparse env (i64 (pos - sz)) else (.ok (), dm)) = p → MKin T B raw p.2 := by
    intro p hp
    split at hp
    · exact expandSparse_kin (r := p.1) hF hp hm
    · subst hp; exact hm
  split
  · next he => exact this _ he
  · next he =>
    split
    · exact (this _ he).of rfl rfl rfl rfl
    · exact (this _ he).of rfl rfl rfl rfl

theorem seek_kin (hF : Family T B raw st) {dm : DM} {off wh : Int} (hm : MKin T B raw dm) : MKin T B raw (dm.seek env off wh).2 := by
  unfold DM.seek
  split
  · next hs => exact sync_kin hF hs hm
  · next dm1 hs =>
    have h1 := sync_kin hF hs hm
    split
    · exact h1
    · split
      · exact h1
      · exact seekTail_kin hF h1

theorem truncate_kin (hF : Family T B raw st) {dm : DM} {size : Int} (hm : MKin T B raw dm) : MKin T B raw (dm.truncate env size).2 := by
  unfold DM.truncate
  split
  · next hs => exact sync_kin hF hs hm
  · next dm1 hs =>
    have h1 := sync_kin hF hs hm
    split
    · exact h1
    split
    · exact h1
    split
    · exact expandSparse_kin (r := _) hF rfl h1
    split
    · next ht => exact ⟨h1.pfx, h1.raws, h1.cur, (dagTruncate_kin hF _ _ _ _ _ ht h1.all h1.cur).1⟩
    · next ht =>
      have s := dagTruncate_kin hF _ _ _ _ _ ht h1.all h1.cur
      split
      · next ha =>
        refine ⟨h1.pfx, h1.raws, ?_, add_all ha s.1 (s.2 _ rfl)⟩
        dsimp only
        split
        · exact s.2 _ rfl
        · exact h1.cur
      · next ha => exact ⟨h1.pfx, h1.raws, s.2 _ rfl, add_all ha s.1 (s.2 _ rfl)⟩

theorem step_kin (hF : Family T B raw st) {dm : DM} (op : MOp) (hm : MKin T B raw dm) : MKin T B raw (dm.step env op).2 := by
  cases op with
  | write b => exact write_kin hF hm
  | writeAt b off => exact writeAt_kin hF hm
  | read k => exact readN_kin hF hm
  | seek off wh => exact seek_kin hF hm
  | truncate s => exact truncate_kin hF hm
  | sync => exact sync_kin (r := _) hF rfl hm
  | getNode =>
    have : MKin T B raw (dm.getNode env).2 := by
      unfold DM.getNode
      split
      · next hs => exact sync_kin hF hs hm
      · next hs => exact sync_kin hF hs hm
    simp only [DM.step]
    split
    · next h => rw [h] at this; exact this
    · next h => rw [h] at this; exact this
  | size => exact hm
  | hasChanges => exact hm

theorem run_kin (hF : Family T B raw st) : ∀ (ops : List MOp) (dm : DM), MKin T B raw dm → MKin T B raw (dm.run env ops).2
  | [], _, hm => hm
  | op :: ops, _, hm => run_kin hF ops _ (step_kin hF op hm)

end Unixfs.Mod
