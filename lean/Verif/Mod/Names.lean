import Verif.Import.FailLemmas
import Verif.Mod.Loose

/-! # The links of a file have no names, whatever happens to it (C109)

The definitions in this file belong to proofs; they model no code.
-/

namespace Unixfs.Import
open Unixfs.Spec

/-- No link has a name. -/
def NoNames (ls : List Link) : Prop := ∀ l ∈ ls, l.name = []

theorem NoNames.snoc {ls : List Link} (h : NoNames ls) (n : Node) : NoNames (ls ++ [makeLink [] n]) := by
  intro l hl
  rw [List.mem_append, List.mem_singleton] at hl
  rcases hl with hl | rfl
  · exact h l hl
  · rfl

theorem addChildF_names {n : FSN} (c : Built) (sz : UInt64) (db : DB) (h : NoNames n.links) : NoNames (n.addChildF c sz db).2.1.links := by
  unfold FSN.addChildF
  dsimp only
  split <;> exact h.snoc _

theorem commit_names {n n' : FSN} {x : Node} (hc : n.commit = .ok (x, n')) (h : NoNames n.links) : NoNames n'.links := by
  unfold FSN.commit at hc
  split at hc <;> cases hc
  exact h

theorem fillLayerLoopF_names : ∀ (k : Nat) (n : FSN) (db : DB), NoNames n.links → NoNames (DB.fillLayerLoopF k n db).2.1.links
  | 0, n, db, h => h
  | k + 1, n, db, h => by
    unfold DB.fillLayerLoopF
    split
    · exact h
    · split
      · exact h
      · next child size db2 _ =>
        have ha := addChildF_names child size db2 h
        split
        · next e => rw [e] at ha; exact ha
        · next e => rw [e] at ha; exact fillLayerLoopF_names k _ _ ha

theorem fillNodeLayerF_names {n : FSN} (db : DB) (h : NoNames n.links) : NoNames (DB.fillNodeLayerF n db).2.1.links := by
  have hl := fillLayerLoopF_names (db.maxlinks - n.numChildren) n db h
  unfold DB.fillNodeLayerF
  split
  · next e => rw [e] at hl; exact hl
  · next e =>
    rw [e] at hl
    split
    · exact hl
    · next hc => exact commit_names hc hl

namespace Trickle

theorem repeatLoopF_names (sub : DB → Except Err (Node × UInt64) × DB) : ∀ (k : Nat) (n : FSN) (db : DB), NoNames n.links → NoNames (repeatLoopF sub k n db).2.1.links
  | 0, n, db, h => h
  | k + 1, n, db, h => by
    unfold repeatLoopF
    split
    · exact h
    · split
      · exact h
      · next c size db2 _ =>
        have ha := addChildF_names ⟨c, none⟩ size db2 h
        split
        · next e => rw [e] at ha; exact ha
        · next e => rw [e] at ha; exact repeatLoopF_names sub k _ _ ha

theorem growLoopF_names : ∀ (fuel i : Nat) (n : FSN) (db : DB), NoNames n.links → NoNames (growLoopF fuel i n db).2.1.links
  | 0, i, n, db, h => by
    unfold growLoopF
    split <;> exact h
  | fuel + 1, i, n, db, h => by
    unfold growLoopF
    split
    · exact h
    · next db1 _ =>
      have hr := repeatLoopF_names (subTrickleF i) depthRepeat n db1 h
      split
      · next e => rw [e] at hr; exact hr
      · next e => rw [e] at hr; exact growLoopF_names fuel _ _ _ hr

theorem removeChild_names {n n' : FSN} {i : Nat} (hr : n.removeChild i = .ok n') (h : NoNames n.links) : NoNames n'.links := by
  unfold FSN.removeChild at hr
  split at hr
  · cases hr
  · split at hr
    · cases hr
      intro l hl
      simp only [List.mem_append] at hl
      exact h l (hl.elim List.mem_of_mem_take List.mem_of_mem_drop)
    · cases hr

theorem appendFillLastChildF_names (rec : FSN → DB → Int → Except Err (FSN × UInt64) × DB) {n : FSN} (depth rep : Nat) (db : DB) (h : NoNames n.links) :
    NoNames (appendFillLastChildF rec n depth rep db).2.1.links := by
  unfold appendFillLastChildF
  split
  · exact h
  simp only
  split
  · exact h
  split
  · exact h
  split
  · exact h
  next hr =>
  have h1 := removeChild_names hr h
  split
  · exact h1
  · next nchildSize db2 _ _ _ _ filled _ _ =>
    have ha := addChildF_names ⟨filled, none⟩ nchildSize db2 h1
    split
    · next e => rw [e] at ha; exact ha
    · next e =>
      rw [e] at ha
      split
      · exact repeatLoopF_names _ _ _ _ ha
      · exact ha

theorem appendRestF_names (fuel ht : Nat) {n : FSN} (depth rep : Nat) (db : DB) (h : NoNames n.links) : NoNames (appendRestF fuel ht n depth rep db).2.1.links := by
  have ha := appendFillLastChildF_names (appendRecF ht) (depth - 1) rep db h
  unfold appendRestF
  split
  · next e => rw [e] at ha; exact ha
  · next fsn db3 e =>
    rw [e] at ha
    dsimp only
    have hg := growLoopF_names fuel (if db3.done.1 then depth else depth + 1) fsn db3.done.2 ha
    split
    · next e => rw [e] at hg; exact hg
    · next e =>
      rw [e] at hg
      split
      · exact hg
      · next hc => exact commit_names hc hg

theorem fromDag_names {d : Bytes} {ls : List Link} {b : Builder} {n : FSN} (hf : FSN.fromDag d ls b = .ok n) (h : NoNames ls) : NoNames n.links := by
  unfold FSN.fromDag at hf
  split at hf <;> cases hf
  exact h

theorem appendF_names (fuel ht : Nat) {base : Node} (db : DB) (h : NoNames base.links) : NoNames (appendF fuel ht base db).2.1.links := by
  unfold appendF
  split
  · next d ls b =>
    split
    · exact h
    · next fsn hf =>
      have h0 := fromDag_names hf h
      simp only
      split
      · have hl := fillNodeLayerF_names db h0
        split
        · next e => rw [e] at hl; exact hl
        · next fsn1 db1 e =>
          rw [e] at hl
          split
          · exact hl
          · next db2 _ => exact appendRestF_names fuel ht 1 (depthInfo fsn db.maxlinks).2 db2 hl
      · exact appendRestF_names fuel ht (depthInfo fsn db.maxlinks).1 (depthInfo fsn db.maxlinks).2 db h0
  · exact h

theorem append_names {fuel ht : Nat} {base n : Node} {db db' : DB} (hr : append fuel ht base db = .ok (n, db')) (h : NoNames base.links) : NoNames n.links := by
  rw [← appendF_eq] at hr
  have ha := appendF_names fuel ht db h
  generalize appendF fuel ht base db = R at hr ha
  obtain ⟨r, x, db2⟩ := R
  cases r with
  | error e => cases hr
  | ok u => cases hr; exact ha

end Trickle
end Unixfs.Import

namespace Unixfs.Mod
open Unixfs.Spec Unixfs.Import

variable {env : Env}

theorem modifyLinks_names : ∀ (bss : List UInt64) (ls : List Link) (cur off : UInt64) (buf : Bytes) (svc : Svc), NoNames ls → NoNames (modifyLinks env bss ls cur off buf svc).2.1
  | [], ls, _, _, buf, svc, h => by unfold modifyLinks; exact h
  | bs :: bss, [], cur, off, buf, svc, h => by unfold modifyLinks; exact h
  | bs :: bss, .mk nm sz child :: ls, cur, off, buf, svc, h => by
    have h1 : nm = [] := h (.mk nm sz child) (by simp)
    have h2 : NoNames ls := fun l hl => h l (by simp [hl])
    have hc : ∀ (k : Node) (ls' : List Link), NoNames ls' → NoNames (.mk nm sz k :: ls') := by
      intro k ls' h' l hl
      rcases List.mem_cons.mp hl with rfl | hl
      · exact h1
      · exact h' l hl
    unfold modifyLinks
    split
    · split
      · exact h
      · split
        · exact h
        · next k _ buf1 svc1 _ =>
          split
          · exact hc _ _ h2
          · exact hc _ _ (modifyLinks_names bss ls _ _ _ _ h2)
    · exact hc _ _ (modifyLinks_names bss ls _ _ _ _ h2)

theorem modifyDag_names {n : Node} {off : UInt64} {buf : Bytes} {svc : Svc} {r : Except Err Node} {x : Node} {rest : Bytes} {svc' : Svc}
    (h : modifyDag env n off buf svc = (r, x, rest, svc')) (hn : NoNames n.links) : NoNames x.links ∧ ∀ k, r = .ok k → NoNames k.links := by
  have nil : NoNames [] := by intro l hl; cases hl
  cases n with
  | raw d b =>
    unfold modifyDag at h
    split at h
    · cases h; exact ⟨nil, by simp⟩
    · dsimp only at h
      split at h <;> cases h
      · exact ⟨nil, by simp⟩
      · exact ⟨nil, fun k hk => by cases hk; exact nil⟩
  | other d => unfold modifyDag at h; cases h; exact ⟨nil, by simp⟩
  | proto d ls b =>
    cases ls with
    | nil =>
      unfold modifyDag at h
      split at h
      · cases h; exact ⟨nil, by simp⟩
      split at h
      · cases h; exact ⟨nil, by simp⟩
      dsimp only at h
      split at h
      · cases h; exact ⟨nil, by simp⟩
      split at h <;> cases h
      · exact ⟨nil, by simp⟩
      · exact ⟨nil, fun k hk => by cases hk; exact nil⟩
    | cons l ls =>
      unfold modifyDag at h
      split at h
      · cases h; exact ⟨hn, by simp⟩
      next fs _ =>
      have hm := modifyLinks_names (env := env) fs.blockSizes (l :: ls) 0 off buf svc hn
      split at h
      · next e => rw [e] at hm; cases h; exact ⟨hm, by simp⟩
      · next e =>
        rw [e] at hm
        split at h <;> cases h
        · exact ⟨hm, by simp⟩
        · exact ⟨hm, fun k hk => by cases hk; exact hm⟩

theorem truncLinks_names : ∀ (ls : List Link) (cur size : UInt64) (fs : FSNode) (kept : List Link) (svc : Svc) (fs' : FSNode) (kept' : List Link) (md : Node) (svc' : Svc),
    truncLinks env ls cur size fs kept svc = (.ok (fs', kept', md), svc') → NoNames ls → NoNames kept → NoNames kept'
  | [], cur, size, fs, kept, svc, fs', kept', md, svc', h, _, _ => by unfold truncLinks at h; cases h
  | .mk nm sz child :: ls, cur, size, fs, kept, svc, fs', kept', md, svc', h, hn, hk => by
    unfold truncLinks at h
    split at h
    · cases h
    split at h
    · cases h
    split at h
    · split at h <;> cases h
      exact hk
    · refine truncLinks_names ls _ _ _ _ _ _ _ _ _ h (fun l hl => hn l (by simp [hl])) ?_
      intro l hl
      rw [List.mem_append, List.mem_singleton] at hl
      rcases hl with hl | rfl
      · exact hk l hl
      · exact hn (.mk nm sz child) (by simp)

theorem dagTruncate_names {n k : Node} {size : UInt64} {svc svc' : Svc} (h : dagTruncate env n size svc = (.ok k, svc')) (hn : NoNames n.links) : NoNames k.links := by
  have nil : NoNames [] := by intro l hl; cases hl
  cases n with
  | raw d b =>
    unfold dagTruncate at h
    split at h <;> cases h
    exact nil
  | other d => unfold dagTruncate at h; cases h
  | proto d ls b =>
    cases ls with
    | nil =>
      unfold dagTruncate at h
      split at h
      · cases h
      split at h <;> cases h
      exact nil
    | cons l ls =>
      unfold dagTruncate at h
      split at h
      · cases h
      split at h
      · cases h
      next hm =>
      have := truncLinks_names _ _ _ _ _ _ _ _ _ _ hm hn nil
      split at h
      · cases h
      split at h <;> cases h
      exact this.snoc _

theorem names_stable : Stable env (fun n => NoNames n.links) where
  modify := fun h hn => modifyDag_names h hn
  trunc := fun h hn => dagTruncate_names h hn
  append := by
    intro dm chunks fin k svc' h hn
    unfold DM.appendData at h
    split at h
    · cases h
    split at h
    · cases h
    · split at h
      · cases h
      · next hA =>
        cases h
        exact Trickle.append_names hA hn
  left := by
    intro dm size e svc' h hn
    unfold DM.appendLeft
    split
    · next hc => rw [hc] at hn; exact hn
    · split
      · exact hn
      · exact Trickle.appendF_names _ _ _ hn
  other := by intro l hl; cases hl

end Unixfs.Mod
