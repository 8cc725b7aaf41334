import Verif.Dir.HamtForm
import Verif.Hamt.PropLemmas

/-!
# Histories on a directory

The definitions in this file belong to proofs; they model no code.
-/

namespace Unixfs.Dir
open Unixfs.Hamt

/-- If the CID builder has always been `b0`, it is `b0`. -/
def Plain (bo : Option Builder) (b : Basic) : Prop := ∀ b0, bo = some b0 → b.builder = b0 ∧ b.data = folderPBData

/-- The directory holds the map `M`. `W`: the widths (as exponents) that occur. -/
def DInv (env : Env) (W : Nat → Prop) (bo : Option Builder) (d : Dir) (st : List Node) (M : NMap) : Prop :=
  M [] = none ∧ match d with
  | .basic b => BInv b M ∧ Plain bo b
  | .hamt h => ∃ lg, W lg ∧ HP env.H lg ∧ SInv env.H lg bo h.shard st M

/-- What is known about sizes. -/
def Small (thr : Int) (d : Dir) (M : NMap) : Prop :=
  match d with
  | .basic b => (total b.links : Int) < thr
  | .hamt h => (∀ k, M k = none) → -3 ≤ h.sizeChange

/-- The names that collide for one of the widths. -/
def coll (env : Env) (W : Nat → Prop) : Bytes → Bytes → Prop := fun a b => ∃ lg, W lg ∧ Collide env.H lg a b

theorem varint_pos (n : Nat) : 1 ≤ (Pb.encVarint n).length := by
  rw [Pb.encVarint, Pb.encVarintF]; split <;> simp

theorem cidLen_ge (x : Node) : 4 ≤ x.cidLen := by
  have h : ∀ b : Builder, 4 ≤ b.cidLen := by
    intro b
    have h1 := varint_pos b.codec; have h2 := varint_pos b.mhType; have h3 := varint_pos b.mhLen
    unfold Builder.cidLen
    split <;> omega
  cases x with
  | proto d l b => exact h b
  | raw d b => exact h b
  | other d => exact (by decide : 4 ≤ 36)

theorem empty_lists {M : NMap} (h : ∀ k, M k = none) {ls : List Link} (hl : Lists M ls) : ls = [] := by
  cases ls with
  | nil => rfl
  | cons l ls => have := lists_mem hl (List.mem_cons_self (a := l) (l := ls)); rw [h] at this; cases this

theorem lists_empty {M : NMap} (hl : Lists M []) (k : Bytes) : M k = none := by
  cases hm : M k with
  | none => rfl
  | some v => rw [hl.2] at hm; cases hm

theorem upd_none {M : NMap} {name : Bytes} (h : M name = none) : M.upd name none = M := by
  funext k; simp only [NMap.upd]; split
  · rename_i hk; rw [hk, h]
  · rfl

theorem each_go (cb : Nat → Bool) : ∀ (ls : List Link) (j : Nat),
    (Basic.forEachLink.go cb ls j = (ls, none) ∧ ∀ i < ls.length, cb (j + i) = false) ∨
    ∃ pre l more, ls = pre ++ l :: more ∧ Basic.forEachLink.go cb ls j = (pre ++ [l], some (.hamt "callback")) ∧ (∀ i < pre.length, cb (j + i) = false) ∧ cb (j + pre.length) = true
  | [], j => .inl ⟨rfl, by simp⟩
  | l :: ls, j => by
    rw [Basic.forEachLink.go]
    by_cases hc : cb j = true
    · rw [if_pos hc]
      exact .inr ⟨[], l, ls, rfl, rfl, by simp, by simpa using hc⟩
    · rw [if_neg hc]
      rcases each_go cb ls (j + 1) with ⟨h1, h2⟩ | ⟨pre, x, more, h1, h2, h3, h4⟩
      · left
        rw [h1]
        refine ⟨rfl, fun i hi => ?_⟩
        cases i with
        | zero => simpa using hc
        | succ i => rw [show j + (i + 1) = j + 1 + i by omega]; exact h2 i (by simpa using hi)
      · right
        rw [h2]
        refine ⟨l :: pre, x, more, by rw [h1]; rfl, rfl, fun i hi => ?_, ?_⟩
        · cases i with
          | zero => simpa using hc
          | succ i => rw [show j + (i + 1) = j + 1 + i by omega]; exact h3 i (by simpa using hi)
        · rw [List.length_cons, show j + (pre.length + 1) = j + 1 + pre.length by omega]; exact h4

theorem fromNode_hamt {nd : Node} {s : Shard} (h : newHamtFromDag nd = .ok s) : newDirectoryFromNode nd = .ok (.hamt { shard := s, sizeChange := 0 }) := by
  have h' := h
  rw [newHamtFromDag.eq_def] at h
  split at h
  · rename_i d ls b
    rw [newDirectoryFromNode]
    split at h
    · cases h
    · rename_i fs hfs
      rw [hfs]
      dsimp only
      split at h
      · cases h
      · rename_i ht
        simp only [ne_eq, not_not] at ht
        rw [ht, if_neg (by decide), if_pos rfl, h']
  · cases h

theorem fromNode_basic {b : Basic} {M : NMap} (h : BInv b M) : newDirectoryFromNode b.node = .ok (.basic ⟨b.data, b.links, b.builder, total b.links⟩) := by
  obtain ⟨fs, h1, h2⟩ := h.isDir
  rw [Basic.node, newDirectoryFromNode, h1]
  dsimp only
  rw [if_pos h2, ofNode_eq]

/-- The result of one call. -/
structure Outcome (env : Env) (W : Nat → Prop) (bo : Option Builder) (c : Cfg) (M : NMap) (op : DOp) (r : DRes) (c' : Cfg) (M' : NMap) : Prop where
  inv : DInv env W bo c'.dir c'.st M'
  step : DStep (coll env W) (Excuse env c c') (Cancelled env c c') M op r M'
  small : env.NoCancel → 0 < c.thr → c'.thr = c.thr → Small c.thr c.dir M → Small c.thr c'.dir M'

theorem add_spec {env : Env} {W : Nat → Prop} {bo : Option Builder} (hreal : env.Real) {lg0 : Nat} (hW : W lg0) (hp0 : HP env.H lg0) (hw : env.width = ((2 ^ lg0 : Nat) : Int)) (hfix : ∀ b0, bo = some b0 → pbBuilder (some b0) = b0) {c : Cfg} {M : NMap}
    (hi : DInv env W bo c.dir c.st M) {name : Bytes} (hn : name ≠ []) (nd : Node) {r : Except Err Unit} {c' : Cfg} (he : addChild env c name nd = (r, c')) :
    ∃ M', Outcome env W bo c M (.add name nd) (match r with | .ok () => .done | .error e => .fail e) c' M' := by
  obtain ⟨hne, hi⟩ := hi
  have hne' : ∀ v, (M.upd name v) [] = none := by intro v; rw [NMap.upd, if_neg (Ne.symm hn)]; exact hne
  have hpos : (5 : Int) ≤ linkSize name nd := by
    have := cidLen_ge nd
    have := List.length_pos_iff.mpr hn
    rw [linkSize]; omega
  rw [addChild] at he
  cases hd : c.dir with
  | hamt h =>
    rw [hd] at hi he
    obtain ⟨lg, hlg, hp, hi⟩ := hi
    dsimp only at he
    generalize hN : h.needsToSwitchToBasicDir env c.thr name (some nd) c.t c.k = N at he
    obtain ⟨rN, h1, t1, k1⟩ := N
    obtain ⟨i1, s1, m1, m2, m3, dec⟩ := needs_spec hreal hp hi c.thr name (some nd) c.t c.k hN
    have hsmall : ∀ h2 : HamtDir, h2.sizeChange = h1.sizeChange → (Small c.thr (.hamt h) M → Small c.thr (.hamt h2) M) := by
      intro h2 hs hsm hem; have := hsm hem; rw [hs, s1]; exact this
    cases rN with
    | error e =>
      simp only [Prod.mk.injEq] at he
      obtain ⟨rfl, rfl⟩ := he
      refine ⟨M, ⟨hne, lg, hlg, hp, i1⟩, ?_, fun _ _ _ hs => by rw [hd] at hs; exact hsmall h1 rfl hs⟩
      refine .addFail ?_
      cases dec with
      | fetch hf => exact .fetch hf
      | enum hk h => exact .enum (j := c.k) (le_refl _) (by dsimp only; omega) h
    | ok sw =>
      cases sw with
      | true =>
        dsimp only at he
        generalize hB : h1.switchToBasic env t1 = B at he
        obtain ⟨rB, h2, t2⟩ := B
        obtain ⟨i2, s2, m4, hb⟩ := toBasic_spec hp i1 t1 hB
        rcases hb with ⟨b, rfl, hb, hb1, hb2⟩ | ⟨rfl, hf⟩
        · dsimp only at he
          obtain ⟨b', g1, g2, g3, g4, g5, g6⟩ := baddLink hb name (makeLink [] nd)
          rw [Basic.addChild, g1] at he
          simp only [Prod.mk.injEq] at he
          obtain ⟨rfl, rfl⟩ := he
          refine ⟨_, ⟨hne' _, g2, fun b0 h => by rw [g3, g4]; exact ⟨hb2 b0 h, hb1⟩⟩, .add, fun hnc hthr _ hsm => ?_⟩
          rw [hd] at hsm
          show (total b'.links : Int) < c.thr
          rw [g6]
          cases dec with
          | cancelled _ _ _ h => exact absurd h (hnc _)
          | below h0 hs hk hl h =>
            rename_i ls
            rw [total_perm (lists_unique hb.lists hl)]
            rw [opSize, addSize] at h hs
            rcases h with rfl | h
            · exfalso
              have hem := lists_empty hl
              have := hsm hem
              rw [oldSize, hem] at hs
              dsimp only at hs
              omega
            · show (total ls : Int) - oldSize M name + linkSize name nd < c.thr
              omega
        · simp only [Prod.mk.injEq] at he
          obtain ⟨rfl, rfl⟩ := he
          refine ⟨M, ⟨hne, lg, hlg, hp, i2⟩, .addFail (.fetch (hf.mono m1 (le_refl _))), fun _ _ _ hs => by rw [hd] at hs; exact hsmall h2 s2 hs⟩
      | false =>
        dsimp only at he
        generalize hA : h1.addChild env name nd t1 c.st = A at he
        obtain ⟨rA, h2, t2, st2⟩ := A
        obtain ⟨m4, m5, ha⟩ := hadd hp i1 name hn nd t1 hA
        simp only [Prod.mk.injEq] at he
        obtain ⟨rfl, rfl⟩ := he
        rcases ha with ⟨rfl, i2, _, _⟩ | ⟨i2, s2, ha⟩
        · refine ⟨_, ⟨hne' _, lg, hlg, hp, i2⟩, .add, fun _ _ _ _ hem => ?_⟩
          have := hem name
          simp [NMap.upd] at this
        · refine ⟨M, ⟨hne, lg, hlg, hp, i2⟩, ?_, fun _ _ _ hs => by rw [hd] at hs; exact hsmall h2 s2 hs⟩
          rcases ha with ⟨rfl, _, k', a1, a2, a3⟩ | ⟨rfl, hf⟩ | ⟨rfl, hf⟩
          · exact .addDeep (k1 := name) (k2 := k') (.inl rfl) (.inr a1) (Ne.symm a2) ⟨lg, hlg, a3⟩
          · exact .addFail (.fetch (hf.mono m1 (le_refl _)))
          · exact .addFail (.add hf)
  | basic b =>
    rw [hd] at hi he
    obtain ⟨hi, hq⟩ := hi
    dsimp only at he
    cases hN : b.needsToSwitchToHAMTDir c.thr name nd with
    | false =>
      rw [if_pos hN] at he
      obtain ⟨b', g1, g2, g3, g4, g5, g6⟩ := baddLink hi name (makeLink [] nd)
      rw [Basic.addChild, g1] at he
      simp only [Prod.mk.injEq] at he
      obtain ⟨rfl, rfl⟩ := he
      refine ⟨_, ⟨hne' _, g2, fun b0 h => by rw [g3, g4]; exact hq b0 h⟩, .add, fun _ hthr _ _ => ?_⟩
      show (total b'.links : Int) < c.thr
      rw [g6]
      rw [Basic.needsToSwitchToHAMTDir, if_neg (by omega), bget hi, hi.est] at hN
      simp only [decide_eq_false_iff_not] at hN
      rw [oldSize]
      show (total b.links : Int) - _ + linkSize name nd < _
      cases hm : M name with
      | none => rw [hm] at hN; simp only [Option.map_none] at hN; dsimp only at hN ⊢; omega
      | some v => rw [hm] at hN; simp only [Option.map_some, entry, Link.target] at hN; dsimp only at hN ⊢; linarith
    | true =>
      rw [if_neg (by rw [hN]; simp)] at he
      generalize hS : b.switchToSharding env c.t = S at he
      obtain ⟨rS, t1⟩ := S
      obtain ⟨m1, hs⟩ := toHamt_spec hp0 hw hi hne (fun b0 h => by rw [(hq b0 h).1]; exact hfix b0 h) c.st c.t hS
      rcases hs with ⟨h, rfl, hsc, i1⟩ | ⟨rfl, k1, k2, a1, a2, a3, a4⟩ | ⟨rfl, hf⟩
      · dsimp only at he
        generalize hA : h.addChild env name nd t1 c.st = A at he
        obtain ⟨rA, h2, t2, st2⟩ := A
        obtain ⟨m4, m5, ha⟩ := hadd hp0 i1 name hn nd t1 hA
        rcases ha with ⟨rfl, i2, _, _⟩ | ⟨i2, s2, ha⟩
        · simp only [Prod.mk.injEq] at he
          obtain ⟨rfl, rfl⟩ := he
          refine ⟨_, ⟨hne' _, lg0, hW, hp0, i2⟩, .add, fun _ _ _ _ hem => ?_⟩
          have := hem name
          simp [NMap.upd] at this
        · rcases ha with ⟨rfl, _, k', a1, a2, a3⟩ | ⟨rfl, hf⟩ | ⟨rfl, hf⟩
          · simp only [Prod.mk.injEq] at he
            obtain ⟨rfl, rfl⟩ := he
            refine ⟨M, ⟨hne, hi, hq⟩, ?_, fun _ _ _ hs => by rw [hd] at hs; exact hs⟩
            exact .addDeep (k1 := name) (k2 := k') (.inl rfl) (.inr a1) (Ne.symm a2) ⟨lg0, hW, a3⟩
          · simp only [Prod.mk.injEq] at he
            obtain ⟨rfl, rfl⟩ := he
            exact ⟨M, ⟨hne, hi, hq⟩, .addFail (.fetch (hf.mono m1 (le_refl _))), fun _ _ _ hs => by rw [hd] at hs; exact hs⟩
          · simp only [Prod.mk.injEq] at he
            obtain ⟨rfl, rfl⟩ := he
            exact ⟨M, ⟨hne, hi, hq⟩, .addFail (.add hf), fun _ _ _ hs => by rw [hd] at hs; exact hs⟩
      · simp only [Prod.mk.injEq] at he
        obtain ⟨rfl, rfl⟩ := he
        exact ⟨M, ⟨hne, hi, hq⟩, .addDeep (.inr a1) (.inr a2) a3 ⟨lg0, hW, a4⟩, fun _ _ _ hs => by rw [hd] at hs; exact hs⟩
      · simp only [Prod.mk.injEq] at he
        obtain ⟨rfl, rfl⟩ := he
        exact ⟨M, ⟨hne, hi, hq⟩, .addFail (.fetch hf), fun _ _ _ hs => by rw [hd] at hs; exact hs⟩

theorem remove_spec {env : Env} {W : Nat → Prop} {bo : Option Builder} (hreal : env.Real) {c : Cfg} {M : NMap}
    (hi : DInv env W bo c.dir c.st M) {name : Bytes} (hn : name ≠ []) {r : Except Err Unit} {c' : Cfg} (he : removeChild env c name = (r, c')) :
    ∃ M', Outcome env W bo c M (.remove name) (match r with | .ok () => .done | .error e => .fail e) c' M' := by
  obtain ⟨hne, hi⟩ := hi
  have hne' : ∀ v, (M.upd name v) [] = none := by intro v; rw [NMap.upd, if_neg (Ne.symm hn)]; exact hne
  rw [removeChild] at he
  cases hd : c.dir with
  | basic b =>
    rw [hd] at hi he
    obtain ⟨hi, hq⟩ := hi
    dsimp only at he
    rcases bremove hi name with ⟨h1, h2⟩ | ⟨v, b', h1, h2, h3, h4, h5, h6⟩
    · rw [h2] at he
      simp only [Prod.mk.injEq] at he
      obtain ⟨rfl, rfl⟩ := he
      exact ⟨M, ⟨hne, hi, hq⟩, .removeAbsent h1, fun _ _ _ hs => by rw [hd] at hs; exact hs⟩
    · rw [h2] at he
      simp only [Prod.mk.injEq] at he
      obtain ⟨rfl, rfl⟩ := he
      refine ⟨_, ⟨hne' _, h3, fun b0 h => by rw [h4, h5]; exact hq b0 h⟩, .remove h1, fun _ _ _ hs => ?_⟩
      rw [hd] at hs
      show (total b'.links : Int) < c.thr
      rw [h6, total_filter hi.lists]
      have := oldSize_nonneg M name
      have : (total b.links : Int) < c.thr := hs
      omega
  | hamt h =>
    rw [hd] at hi he
    obtain ⟨lg, hlg, hp, hi⟩ := hi
    dsimp only at he
    generalize hN : h.needsToSwitchToBasicDir env c.thr name none c.t c.k = N at he
    obtain ⟨rN, h1, t1, k1⟩ := N
    obtain ⟨i1, s1, m1, m2, m3, dec⟩ := needs_spec hreal hp hi c.thr name none c.t c.k hN
    have hsmall : ∀ h2 : HamtDir, h2.sizeChange = h1.sizeChange → (Small c.thr (.hamt h) M → Small c.thr (.hamt h2) M) := by
      intro h2 hs hsm hem; have := hsm hem; rw [hs, s1]; exact this
    cases rN with
    | error e =>
      simp only [Prod.mk.injEq] at he
      obtain ⟨rfl, rfl⟩ := he
      refine ⟨M, ⟨hne, lg, hlg, hp, i1⟩, ?_, fun _ _ _ hs => by rw [hd] at hs; exact hsmall h1 rfl hs⟩
      refine .removeFail ?_
      cases dec with
      | fetch hf => exact .fetch hf
      | enum hk h => exact .enum (j := c.k) (le_refl _) (by dsimp only; omega) h
    | ok sw =>
      cases sw with
      | true =>
        dsimp only at he
        generalize hB : h1.switchToBasic env t1 = B at he
        obtain ⟨rB, h2, t2⟩ := B
        obtain ⟨i2, s2, m4, hb⟩ := toBasic_spec hp i1 t1 hB
        rcases hb with ⟨b, rfl, hb, hb1, hb2⟩ | ⟨rfl, hf⟩
        · dsimp only at he
          rcases bremove hb name with ⟨g1, g2⟩ | ⟨v, b', g1, g2, g3, g4, g5, g6⟩
          · rw [g2] at he
            simp only [Prod.mk.injEq] at he
            obtain ⟨rfl, rfl⟩ := he
            exact ⟨M, ⟨hne, lg, hlg, hp, i2⟩, .removeAbsent g1, fun _ _ _ hs => by rw [hd] at hs; exact hsmall h2 s2 hs⟩
          · rw [g2] at he
            simp only [Prod.mk.injEq] at he
            obtain ⟨rfl, rfl⟩ := he
            refine ⟨_, ⟨hne' _, g3, fun b0 h => by rw [g4, g5]; exact ⟨hb2 b0 h, hb1⟩⟩, .remove g1, fun hnc hthr _ hsm => ?_⟩
            show (total b'.links : Int) < c.thr
            rw [g6, total_filter hb.lists]
            cases dec with
            | cancelled _ _ _ h => exact absurd h (hnc _)
            | below h0 hs hk hl h =>
              rename_i ls
              rw [total_perm (lists_unique hb.lists hl)]
              rw [opSize, addSize] at h
              rcases h with rfl | h
              · rw [lists_empty hl] at g1; cases g1
              · omega
        · simp only [Prod.mk.injEq] at he
          obtain ⟨rfl, rfl⟩ := he
          exact ⟨M, ⟨hne, lg, hlg, hp, i2⟩, .removeFail (.fetch (hf.mono m1 (le_refl _))), fun _ _ _ hs => by rw [hd] at hs; exact hsmall h2 s2 hs⟩
      | false =>
        dsimp only at he
        generalize hA : h1.removeChild env name t1 = A at he
        obtain ⟨rA, h2, t2⟩ := A
        obtain ⟨m4, ha⟩ := hremove hp i1 name hn t1 hA
        simp only [Prod.mk.injEq] at he
        obtain ⟨rfl, rfl⟩ := he
        rcases ha with ⟨v, rfl, hv, i2, q1, q2⟩ | ⟨i2, s2, ha⟩
        · refine ⟨_, ⟨hne' _, lg, hlg, hp, i2⟩, .remove hv, fun _ hthr _ _ hem => ?_⟩
          rw [opSize, addSize] at dec
          cases dec with
          | off h => omega
          | grows h0 h => omega
          | above h0 hs hk hl h =>
            rename_i ls
            have h1 := total_filter hl name
            rw [empty_lists hem (lists_filter hl name), total_nil] at h1
            omega
        · refine ⟨M, ⟨hne, lg, hlg, hp, i2⟩, ?_, fun _ _ _ hs => by rw [hd] at hs; exact hsmall h2 s2 hs⟩
          rcases ha with ⟨rfl, ha⟩ | ⟨rfl, hf⟩
          · exact .removeAbsent ha
          · exact .removeFail (.fetch (hf.mono m1 (le_refl _)))

theorem find_spec {env : Env} {W : Nat → Prop} {bo : Option Builder} {c : Cfg} {M : NMap} (hi : DInv env W bo c.dir c.st M) (name : Bytes) :
    ∃ M', Outcome env W bo c M (.find name) (exec env (.find name) c).1 (exec env (.find name) c).2 M' := by
  obtain ⟨hne, hi⟩ := hi
  simp only [exec, find]
  cases hd : c.dir with
  | basic b =>
    rw [hd] at hi
    obtain ⟨hi, hq⟩ := hi
    dsimp only
    rw [Basic.find, bget hi]
    cases hm : M name with
    | none =>
      simp only [Option.map_none]
      exact ⟨M, ⟨hne, hi, hq⟩, .findAbsent hm, fun _ _ _ hs => by rw [hd] at hs; exact hs⟩
    | some v =>
      simp only [Option.map_some]
      have ht : (entry name v).target = v.2 := rfl
      cases hnet : env.net c.t (entry name v).target with
      | true =>
        simp only [if_true]
        exact ⟨M, ⟨hne, hi, hq⟩, .find hm, fun _ _ _ hs => by rw [hd] at hs; exact hs⟩
      | false =>
        simp only [Bool.false_eq_true, if_false]
        exact ⟨M, ⟨hne, hi, hq⟩, .findFail (.fetch ⟨c.t, _, le_refl _, by simp, hnet⟩), fun _ _ _ hs => by rw [hd] at hs; exact hs⟩
  | hamt h =>
    rw [hd] at hi
    obtain ⟨lg, hlg, hp, hi⟩ := hi
    dsimp only
    rw [HamtDir.find]
    generalize hF : h.shard.find env.H env.net name c.t = F
    obtain ⟨r, s, t⟩ := F
    obtain ⟨h1, h2, h3⟩ := sfind hp env.net hi name c.t hF
    rcases h3 with ⟨l, rfl, hM⟩ | ⟨rfl, hM⟩ | ⟨rfl, hf⟩
    · dsimp only
      cases hnet : env.net t l.target with
      | true =>
        simp only [if_true]
        exact ⟨M, ⟨hne, lg, hlg, hp, h1⟩, .find (v := linkVal l) hM, fun _ _ _ hs => by rw [hd] at hs; exact hs⟩
      | false =>
        simp only [Bool.false_eq_true, if_false]
        exact ⟨M, ⟨hne, lg, hlg, hp, h1⟩, .findFail (.fetch ⟨t, _, h2, by simp, hnet⟩), fun _ _ _ hs => by rw [hd] at hs; exact hs⟩
    · exact ⟨M, ⟨hne, lg, hlg, hp, h1⟩, .findAbsent hM, fun _ _ _ hs => by rw [hd] at hs; exact hs⟩
    · exact ⟨M, ⟨hne, lg, hlg, hp, h1⟩, .findFail (.fetch hf), fun _ _ _ hs => by rw [hd] at hs; exact hs⟩

theorem links_spec {env : Env} {W : Nat → Prop} {bo : Option Builder} (hreal : env.Real) {c : Cfg} {M : NMap} (hi : DInv env W bo c.dir c.st M) :
    ∃ M', Outcome env W bo c M .links (exec env .links c).1 (exec env .links c).2 M' := by
  obtain ⟨hne, hi⟩ := hi
  simp only [exec, links]
  cases hd : c.dir with
  | basic b =>
    rw [hd] at hi
    exact ⟨M, ⟨hne, by dsimp only; rw [hd]; exact hi⟩, .links hi.1.lists, fun _ _ _ hs => hs⟩
  | hamt h =>
    rw [hd] at hi
    obtain ⟨lg, hlg, hp, hi⟩ := hi
    obtain ⟨b, cs, hi', hsh⟩ := hi
    have hsp := enum_spec hreal hp hi' c.k (fun _ => false)
    dsimp only at hsp ⊢
    generalize env.enum c.k h.shard (fun _ => false) = R at hsp ⊢
    obtain ⟨ret, got⟩ := R
    have hdi : DInv env W bo (.hamt h) c.st M := ⟨hne, ⟨lg, hlg, hp, b, cs, hi', hsh⟩⟩
    obtain ⟨more, hmore⟩ := hsp.part
    cases ret with
    | err e => exact ⟨M, hdi, .linksFail hmore (.enum (j := c.k) (le_refl _) (by simp) (hsp.err e rfl)), fun _ _ _ hs => by rw [hd] at hs; exact hs⟩
    | stopped => exact absurd (hsp.stopped rfl) (by simp)
    | ended =>
      rcases hsp.ended rfl with h1 | h1
      · exact ⟨M, hdi, .linksCancelled hmore ⟨c.k, le_refl _, by simp, h1⟩, fun _ _ _ hs => by rw [hd] at hs; exact hs⟩
      · exact ⟨M, hdi, .links h1, fun _ _ _ hs => by rw [hd] at hs; exact hs⟩

theorem forEach_spec {env : Env} {W : Nat → Prop} {bo : Option Builder} {c : Cfg} {M : NMap} (hi : DInv env W bo c.dir c.st M) (cb : Nat → Bool) :
    ∃ M', Outcome env W bo c M (.forEach cb) (exec env (.forEach cb) c).1 (exec env (.forEach cb) c).2 M' := by
  obtain ⟨hne, hi⟩ := hi
  simp only [exec, forEachLink]
  cases hd : c.dir with
  | basic b =>
    rw [hd] at hi
    dsimp only
    rw [Basic.forEachLink]
    have hdi : DInv env W bo c.dir c.st M := ⟨hne, by rw [hd]; exact hi⟩
    rcases each_go cb b.links 0 with ⟨h1, h2⟩ | ⟨pre, l, more, h1, h2, h3, h4⟩
    · rw [h1]
      exact ⟨M, hdi, .each hi.1.lists (fun j hj => by simpa using h2 j hj), fun _ _ _ hs => hs⟩
    · rw [h2]
      exact ⟨M, hdi, .eachStop (more := more) (by rw [← h1]; exact hi.1.lists) (fun j hj => by simpa using h3 j hj) (by simpa using h4), fun _ _ _ hs => hs⟩
  | hamt h =>
    rw [hd] at hi
    obtain ⟨lg, hlg, hp, hi⟩ := hi
    obtain ⟨b, cs, hi', hsh⟩ := hi.at c.t
    obtain ⟨b', cs', M', h1, hts, _, h2⟩ := exec_spec hp env.net (fun _ => false) hi' (.forEach cb) (by simp [Op.target])
    simp only [Hamt.exec] at h1 h2
    dsimp only
    generalize hF : h.shard.forEachLink env.net cb c.t = F at h1 h2 ⊢
    obtain ⟨r1, s1, es⟩ := F
    dsimp only at h1 h2 ⊢
    generalize hO : es.out = O at h2
    cases h2 with
    | each hl hcb => exact ⟨M, ⟨hne, lg, hlg, hp, SInv.of h1 (hsh.step hi'.holds hts (by simp))⟩, .each hl hcb, fun _ _ _ hs => by rw [hd] at hs; exact hs⟩
    | eachStop hl hcb hl' => exact ⟨M, ⟨hne, lg, hlg, hp, SInv.of h1 (hsh.step hi'.holds hts (by simp))⟩, .eachStop hl hcb hl', fun _ _ _ hs => by rw [hd] at hs; exact hs⟩
    | eachFetch hl hcb hf => exact ⟨M, ⟨hne, lg, hlg, hp, SInv.of h1 (hsh.step hi'.holds hts (by simp))⟩, .eachFail hl hcb (.fetch hf), fun _ _ _ hs => by rw [hd] at hs; exact hs⟩

/-- `Node` of a shard: the node can be loaded again. -/
theorem snode {H : Hash} {lg : Nat} {bo : Option Builder} (hp : HP H lg) (ref : Nat → Bool) {s : Shard} {st : List Node} {M : NMap} (hi : SInv H lg bo s st M) {r : Except Err Node} {st' : List Node}
    (he : s.toNode ref st = (r, st')) : SInv H lg bo s st' M ∧ st.length ≤ st'.length ∧
      ((∃ nd s', r = .ok nd ∧ newHamtFromDag nd = .ok s' ∧ SInv H lg bo s' st' M) ∨ (r = .error .addFailed ∧ AddRefused ref st.length st'.length)) := by
  obtain ⟨b, cs, ⟨hr, hh⟩, hsh⟩ := hi
  have h1 := toNode_sim hp ref (levels lg + 1) s b cs hr ⟨_, _, _, hh.wf, by omega⟩ st
  rw [he] at h1
  obtain ⟨⟨ext, hx, _⟩, h1⟩ := h1
  simp only at hx h1
  have hm : ∀ x, x ∈ st → x ∈ st' := fun x hx' => by rw [hx]; simp [hx']
  refine ⟨⟨b, cs, ⟨RepS.mono hm _ _ hr, hh⟩, hsh⟩, by rw [hx]; simp, ?_⟩
  rcases h1 with ⟨rfl, h1⟩ | ⟨rfl, h1⟩
  · exact .inr ⟨rfl, _, by rw [hx]; simp, le_refl _, h1⟩
  · obtain ⟨s', hl, hrep⟩ := repS_load (A := fun x => x ∈ st') hp.valid (wf_idx hh.wf) (b := b)
      (fun x hx => (h1 x hx).mono (fun x hx => hx.elim (hm x) id))
    exact .inl ⟨_, s', rfl, hl, b, cs, ⟨hrep, hh⟩, hsh⟩

theorem getNode_spec {env : Env} {W : Nat → Prop} {bo : Option Builder} {c : Cfg} {M : NMap} (hi : DInv env W bo c.dir c.st M) :
    ∃ M', Outcome env W bo c M .getNode (exec env .getNode c).1 (exec env .getNode c).2 M' := by
  have hi0 := hi
  obtain ⟨hne, hi⟩ := hi
  simp only [exec, getNode]
  cases hd : c.dir with
  | basic b => exact ⟨M, hi0, .getNode, fun _ _ _ hs => hs⟩
  | hamt h =>
    rw [hd] at hi
    obtain ⟨lg, hlg, hp, hi⟩ := hi
    dsimp only
    generalize hF : h.shard.toNode env.ref c.st = F
    obtain ⟨r, st'⟩ := F
    obtain ⟨h1, h2, h3⟩ := snode hp env.ref hi hF
    have hdi : DInv env W bo (.hamt h) st' M := ⟨hne, ⟨lg, hlg, hp, h1⟩⟩
    rcases h3 with ⟨nd, s', rfl, _⟩ | ⟨rfl, hf⟩
    · exact ⟨M, hdi, .getNode, fun _ _ _ hs => by rw [hd] at hs; exact hs⟩
    · exact ⟨M, hdi, .getNodeFail (.add hf), fun _ _ _ hs => by rw [hd] at hs; exact hs⟩

theorem reload_spec {env : Env} {W : Nat → Prop} {bo : Option Builder} {c : Cfg} {M : NMap} (hi : DInv env W bo c.dir c.st M) :
    ∃ M', Outcome env W bo c M .reload (exec env .reload c).1 (exec env .reload c).2 M' := by
  obtain ⟨hne, hi⟩ := hi
  simp only [exec, getNode]
  cases hd : c.dir with
  | basic b =>
    rw [hd] at hi
    dsimp only
    rw [fromNode_basic hi.1]
    exact ⟨M, ⟨hne, ⟨hi.1.lists, rfl, hi.1.isDir⟩, hi.2⟩, .reload, fun _ _ _ hs => by rw [hd] at hs; exact hs⟩
  | hamt h =>
    rw [hd] at hi
    obtain ⟨lg, hlg, hp, hi⟩ := hi
    dsimp only
    generalize hF : h.shard.toNode env.ref c.st = F
    obtain ⟨r, st'⟩ := F
    obtain ⟨h1, h2, h3⟩ := snode hp env.ref hi hF
    have hdi : DInv env W bo (.hamt h) st' M := ⟨hne, ⟨lg, hlg, hp, h1⟩⟩
    rcases h3 with ⟨nd, s', rfl, hl, hi'⟩ | ⟨rfl, hf⟩
    · dsimp only
      rw [fromNode_hamt hl]
      exact ⟨M, ⟨hne, lg, hlg, hp, hi'⟩, .reload, fun _ _ _ _ _ => by show (-3 : Int) ≤ 0; decide⟩
    · exact ⟨M, hdi, .reloadFail (.add hf), fun _ _ _ hs => by rw [hd] at hs; exact hs⟩

theorem exec_dspec {env : Env} {W : Nat → Prop} {bo : Option Builder} (hreal : env.Real) {lg0 : Nat} (hW : W lg0) (hp0 : HP env.H lg0) (hw : env.width = ((2 ^ lg0 : Nat) : Int)) (hfix : ∀ b0, bo = some b0 → pbBuilder (some b0) = b0) {c : Cfg} {M : NMap}
    (hi : DInv env W bo c.dir c.st M) (op : DOp) (hop : op.target ≠ some [])
    (hsb : ∀ bd, op = .setCidBuilder bd → bo = none) : ∃ M', Outcome env W bo c M op (exec env op c).1 (exec env op c).2 M' := by
  cases op with
  | add name nd =>
    have hn : name ≠ [] := fun h => hop (by rw [h]; rfl)
    rw [exec]
    generalize he : addChild env c name nd = R
    obtain ⟨r, c'⟩ := R
    obtain ⟨M', h⟩ := add_spec hreal hW hp0 hw hfix hi hn nd he
    refine ⟨M', ?_⟩
    cases r <;> exact h
  | remove name =>
    have hn : name ≠ [] := fun h => hop (by rw [h]; rfl)
    rw [exec]
    generalize he : removeChild env c name = R
    obtain ⟨r, c'⟩ := R
    obtain ⟨M', h⟩ := remove_spec hreal hi hn he
    refine ⟨M', ?_⟩
    cases r <;> exact h
  | find name => exact find_spec hi name
  | links => exact links_spec hreal hi
  | forEach cb => exact forEach_spec hi cb
  | getNode => exact getNode_spec hi
  | reload => exact reload_spec hi
  | setThreshold n => exact ⟨M, hi, .setThreshold, fun _ _ _ hs => hs⟩
  | setCidBuilder b =>
    obtain ⟨hne, hi⟩ := hi
    simp only [exec, setCidBuilder]
    cases hd : c.dir with
    | basic d =>
      rw [hd] at hi
      exact ⟨M, ⟨hne, hi.1.setBuilder b, fun b0 h => by rw [hsb b rfl] at h; cases h⟩, .setCidBuilder, fun _ _ _ hs => by rw [hd] at hs; exact hs⟩
    | hamt h =>
      rw [hd] at hi
      obtain ⟨lg, hlg, hp, bd, cs, hi, _⟩ := hi
      obtain ⟨b', cs', M', h1, _, _, h2⟩ := exec_spec hp env.net (fun _ => false) hi (.setCidBuilder b) (by simp [Op.target])
      simp only [Hamt.exec] at h1 h2
      cases h2 with
      | setCidBuilder => exact ⟨M, ⟨hne, lg, hlg, hp, SInv.of h1 (fun b0 h => by rw [hsb b rfl] at h; cases h)⟩, .setCidBuilder, fun _ _ _ hs => by rw [hd] at hs; exact hs⟩

/-- A history. -/
theorem execAll_dspec {env : Env} {W : Nat → Prop} {bo : Option Builder} (hreal : env.Real) {lg0 : Nat} (hW : W lg0) (hp0 : HP env.H lg0) (hw : env.width = ((2 ^ lg0 : Nat) : Int)) (hfix : ∀ b0, bo = some b0 → pbBuilder (some b0) = b0) :
    ∀ (ops : List DOp) {c : Cfg} {M : NMap}, DInv env W bo c.dir c.st M → NoEmptyName ops → (∀ op ∈ ops, ∀ bd, op = .setCidBuilder bd → bo = none) →
    ∃ M', DInv env W bo (execAll env ops c).dir (execAll env ops c).st M' ∧ DRun env (coll env W) c M ops M'
  | [], c, M, hi, _, _ => ⟨M, hi, .nil⟩
  | op :: ops, c, M, hi, hn, hsb => by
    obtain ⟨M', h1, h2, _⟩ := exec_dspec hreal hW hp0 hw hfix hi op (hn op (by simp)) (hsb op (by simp))
    obtain ⟨M'', h3, h4⟩ := execAll_dspec hreal hW hp0 hw hfix ops h1 (fun o ho => hn o (by simp [ho])) (fun o ho => hsb o (by simp [ho]))
    exact ⟨M'', h3, .cons rfl h2 h4⟩

theorem exec_thr {env : Env} {op : DOp} (h : ∀ n, op ≠ .setThreshold n) (c : Cfg) : (exec env op c).2.thr = c.thr := by
  cases op with
  | setThreshold n => exact absurd rfl (h n)
  | add name nd =>
    have : (addChild env c name nd).2.thr = c.thr := by
      rw [addChild]
      repeat' split
      all_goals rfl
    rw [exec]; revert this; generalize addChild env c name nd = R; obtain ⟨r, c'⟩ := R; cases r <;> exact id
  | remove name =>
    have : (removeChild env c name).2.thr = c.thr := by
      rw [removeChild]
      repeat' split
      all_goals rfl
    rw [exec]; revert this; generalize removeChild env c name = R; obtain ⟨r, c'⟩ := R; cases r <;> exact id
  | find name =>
    have : (find env c name).2.thr = c.thr := by
      rw [find]
      repeat' split
      all_goals rfl
    rw [exec]; revert this; generalize find env c name = R; obtain ⟨r, c'⟩ := R; cases r <;> exact id
  | links => simp only [exec, links]; split <;> rfl
  | forEach cb => simp only [exec, forEachLink]; split <;> rfl
  | getNode =>
    have : (getNode env c).2.thr = c.thr := by rw [getNode]; split <;> rfl
    rw [exec]; revert this; generalize getNode env c = R; obtain ⟨r, c'⟩ := R; cases r <;> exact id
  | reload =>
    have : (getNode env c).2.thr = c.thr := by rw [getNode]; split <;> rfl
    rw [exec]; revert this; generalize getNode env c = R; obtain ⟨r, c'⟩ := R
    cases r with
    | error e => exact id
    | ok nd => dsimp only; split <;> exact id
  | setCidBuilder b => simp only [exec, setCidBuilder]; split <;> rfl

theorem execAll_small {env : Env} {W : Nat → Prop} {bo : Option Builder} (hreal : env.Real) (hnc : env.NoCancel) {lg0 : Nat} (hW : W lg0) (hp0 : HP env.H lg0) (hw : env.width = ((2 ^ lg0 : Nat) : Int)) (hfix : ∀ b0, bo = some b0 → pbBuilder (some b0) = b0) :
    ∀ (ops : List DOp) {c : Cfg} {M : NMap}, DInv env W bo c.dir c.st M → NoEmptyName ops → (∀ op ∈ ops, ∀ bd, op = .setCidBuilder bd → bo = none) → (∀ op ∈ ops, ∀ n, op ≠ .setThreshold n) → 0 < c.thr → Small c.thr c.dir M →
    ∃ M', DInv env W bo (execAll env ops c).dir (execAll env ops c).st M' ∧ Small c.thr (execAll env ops c).dir M'
  | [], c, M, hi, _, _, _, _, hs => ⟨M, hi, hs⟩
  | op :: ops, c, M, hi, hn, hsb, ht, h0, hs => by
    obtain ⟨M', h1, _, h2⟩ := exec_dspec hreal hW hp0 hw hfix hi op (hn op (by simp)) (hsb op (by simp))
    have h3 := exec_thr (env := env) (ht op (by simp)) c
    have h4 := execAll_small hreal hnc hW hp0 hw hfix ops (c := (exec env op c).2) h1 (fun o ho => hn o (by simp [ho])) (fun o ho => hsb o (by simp [ho])) (fun o ho => ht o (by simp [ho])) (by omega)
      (by rw [h3]; exact h2 hnc h0 h3 hs)
    rw [h3] at h4
    exact h4

/-! ### Removals after loading -/

theorem oldSize_pos {M : NMap} {name : Bytes} {v : LinkVal} (h : M name = some v) : 0 < oldSize M name := by
  rw [oldSize, h]
  have := cidLen_ge v.2
  show 0 < linkSize name v.2
  rw [linkSize]; omega

/-- A removal that succeeds although no entry was added since the directory was loaded. -/
theorem remove_exact {env : Env} {W : Nat → Prop} {bo : Option Builder} (hreal : env.Real) (hnc : env.NoCancel) {c : Cfg} {M : NMap} (hi : DInv env W bo c.dir c.st M)
    {name : Bytes} (hn : name ≠ []) (h0 : 0 < c.thr) (hsc : ∀ h, c.dir = .hamt h → h.sizeChange ≤ 0) {r : Except Err Unit} {c' : Cfg} (he : removeChild env c name = (r, c'))
    {h' : HamtDir} (hh : c'.dir = .hamt h') :
    h'.sizeChange ≤ 0 ∧ (r = .ok () → ∀ ls, Lists (M.upd name none) ls → c.thr ≤ total ls) := by
  obtain ⟨hne, hi⟩ := hi
  rw [removeChild] at he
  cases hd : c.dir with
  | basic b =>
    rw [hd] at he
    dsimp only at he
    generalize b.removeChild name = R at he
    obtain ⟨r1, b'⟩ := R
    simp only [Prod.mk.injEq] at he
    obtain ⟨rfl, rfl⟩ := he
    cases hh
  | hamt h =>
    rw [hd] at hi he
    obtain ⟨lg, hlg, hp, hi⟩ := hi
    have hsc := hsc h hd
    dsimp only at he
    generalize hN : h.needsToSwitchToBasicDir env c.thr name none c.t c.k = N at he
    obtain ⟨rN, h1, t1, k1⟩ := N
    obtain ⟨i1, s1, m1, m2, m3, dec⟩ := needs_spec hreal hp hi c.thr name none c.t c.k hN
    cases rN with
    | error e =>
      simp only [Prod.mk.injEq] at he
      obtain ⟨rfl, rfl⟩ := he
      cases hh
      exact ⟨by omega, by simp⟩
    | ok sw =>
      cases sw with
      | true =>
        dsimp only at he
        generalize hB : h1.switchToBasic env t1 = B at he
        obtain ⟨rB, h2, t2⟩ := B
        obtain ⟨i2, s2, m4, hb⟩ := toBasic_spec hp i1 t1 hB
        rcases hb with ⟨b, rfl, hb, _⟩ | ⟨rfl, hf⟩
        · dsimp only at he
          generalize b.removeChild name = R at he
          obtain ⟨r1, b'⟩ := R
          cases r1 with
          | error e =>
            simp only [Prod.mk.injEq] at he
            obtain ⟨rfl, rfl⟩ := he
            cases hh
            exact ⟨by omega, by simp⟩
          | ok u =>
            simp only [Prod.mk.injEq] at he
            obtain ⟨rfl, rfl⟩ := he
            cases hh
        · simp only [Prod.mk.injEq] at he
          obtain ⟨rfl, rfl⟩ := he
          cases hh
          exact ⟨by omega, by simp⟩
      | false =>
        dsimp only at he
        generalize hA : h1.removeChild env name t1 = A at he
        obtain ⟨rA, h2, t2⟩ := A
        obtain ⟨m4, ha⟩ := hremove hp i1 name hn t1 hA
        simp only [Prod.mk.injEq] at he
        obtain ⟨rfl, rfl⟩ := he
        cases hh
        rcases ha with ⟨v, rfl, hv, i2, q1, q2⟩ | ⟨i2, s2, ha⟩
        · have hpos := oldSize_pos hv
          refine ⟨by omega, fun _ ls hls => ?_⟩
          rw [opSize, addSize] at dec
          cases dec with
          | off h => omega
          | grows h0 h => omega
          | above h0 hs hk hl h =>
            rename_i l0
            have h1 := total_filter hl name
            rw [total_perm (lists_unique hls (lists_filter hl name))]
            omega
        · refine ⟨by omega, fun h => ?_⟩
          rcases ha with ⟨rfl, _⟩ | ⟨rfl, _⟩ <;> cases h

/-- The calls that are not additions or removals and leave the threshold alone. -/
theorem read_sc {env : Env} {W : Nat → Prop} {bo : Option Builder} {c : Cfg} {M : NMap} (hi : DInv env W bo c.dir c.st M) (op : DOp) (hop : op.target = none)
    {h' : HamtDir} (hh : (exec env op c).2.dir = .hamt h') : ∃ h, c.dir = .hamt h ∧ (h'.sizeChange = h.sizeChange ∨ h'.sizeChange = 0) := by
  cases op with
  | add name nd => cases hop
  | remove name => cases hop
  | find name =>
    simp only [exec, find] at hh
    cases hd : c.dir with
    | basic b =>
      rw [hd] at hh
      dsimp only at hh
      split at hh <;> (rename_i he; simp only [Prod.mk.injEq] at he; obtain ⟨_, rfl⟩ := he; cases hh)
    | hamt h =>
      rw [hd] at hh
      dsimp only [HamtDir.find] at hh
      generalize h.shard.find env.H env.net name c.t = F at hh
      obtain ⟨r, s, t⟩ := F
      refine ⟨h, rfl, .inl ?_⟩
      cases r with
      | error e => dsimp only at hh; cases hh; rfl
      | ok o =>
        cases o with
        | none => dsimp only at hh; cases hh; rfl
        | some l => dsimp only at hh; split at hh <;> (rename_i he; simp only [Prod.mk.injEq] at he; obtain ⟨_, rfl⟩ := he; cases hh; rfl)
  | links =>
    simp only [exec, links] at hh
    cases hd : c.dir with
    | basic b => rw [hd] at hh; dsimp only at hh; rw [hd] at hh; cases hh
    | hamt h => rw [hd] at hh; dsimp only at hh; refine ⟨h, rfl, .inl ?_⟩; first | (cases hh; rfl) | (rw [hd] at hh; cases hh; rfl)
  | forEach cb =>
    simp only [exec, forEachLink] at hh
    cases hd : c.dir with
    | basic b => rw [hd] at hh; dsimp only at hh; rw [hd] at hh; cases hh
    | hamt h => rw [hd] at hh; dsimp only at hh; refine ⟨h, rfl, .inl ?_⟩; first | (cases hh; rfl) | (rw [hd] at hh; cases hh; rfl)
  | getNode =>
    simp only [exec, getNode] at hh
    cases hd : c.dir with
    | basic b => rw [hd] at hh; dsimp only at hh; rw [hd] at hh; cases hh
    | hamt h =>
      rw [hd] at hh
      dsimp only at hh
      generalize h.shard.toNode env.ref c.st = F at hh
      obtain ⟨r, st⟩ := F
      cases r <;> (refine ⟨h, rfl, .inl ?_⟩; dsimp only at hh; first | (cases hh; rfl) | (rw [hd] at hh; cases hh; rfl))
  | reload =>
    simp only [exec, getNode] at hh
    cases hd : c.dir with
    | basic b =>
      obtain ⟨hne, hi⟩ := hi
      rw [hd] at hh hi
      dsimp only at hh
      rw [fromNode_basic hi.1] at hh
      cases hh
    | hamt h =>
      rw [hd] at hh
      dsimp only at hh
      generalize h.shard.toNode env.ref c.st = F at hh
      obtain ⟨r, st⟩ := F
      refine ⟨h, rfl, ?_⟩
      cases r with
      | error e => dsimp only at hh; cases hh; exact .inl rfl
      | ok nd =>
        dsimp only at hh
        generalize hN : newDirectoryFromNode nd = N at hh
        cases N with
        | error e => dsimp only at hh; cases hh; exact .inl rfl
        | ok d =>
          dsimp only at hh
          subst hh
          right
          rw [newDirectoryFromNode.eq_def] at hN
          split at hN
          · split at hN
            · cases hN
            · split at hN
              · cases hN
              · split at hN
                · split at hN
                  · cases hN
                  · cases hN; rfl
                · cases hN
          · cases hN
  | setCidBuilder b =>
    simp only [exec, setCidBuilder] at hh
    cases hd : c.dir with
    | basic d => rw [hd] at hh; cases hh
    | hamt h => rw [hd] at hh; refine ⟨h, rfl, .inl ?_⟩; cases hh; rfl
  | setThreshold n => exact ⟨h', hh, .inl rfl⟩

/-- The map at the end is determined by the call and its result. -/
theorem DStep.keeps {coll : Bytes → Bytes → Prop} {ex : Err → Prop} {canc : Prop} {M M' : NMap} {op : DOp} {r : DRes} (h : DStep coll ex canc M op r M')
    (ha : ∀ name nd, op ≠ .add name nd) : (∃ name, op = .remove name ∧ r = .done ∧ M' = M.upd name none) ∨ M' = M ∧ ∀ name, op = .remove name → r ≠ .done := by
  cases h <;> first | exact absurd rfl (ha _ _) | exact .inl ⟨_, rfl, rfl, rfl⟩ | exact .inr ⟨rfl, by simp⟩

/-- Removals and other calls, but no additions, since the directory was loaded. -/
theorem execAll_exact {env : Env} {W : Nat → Prop} {bo : Option Builder} (hreal : env.Real) (hnc : env.NoCancel) {lg0 : Nat} (hW : W lg0) (hp0 : HP env.H lg0)
    (hw : env.width = ((2 ^ lg0 : Nat) : Int)) (hfix : ∀ b0, bo = some b0 → pbBuilder (some b0) = b0) (thr : Int) (h0 : 0 < thr) :
    ∀ (ops : List DOp) {c : Cfg} {M : NMap} (seen : Prop), DInv env W bo c.dir c.st M → NoEmptyName ops → (∀ op ∈ ops, ∀ bd, op = .setCidBuilder bd → bo = none) →
    (∀ op ∈ ops, ∀ n, op ≠ .setThreshold n) → (∀ op ∈ ops, ∀ name nd, op ≠ .add name nd) → c.thr = thr →
    (∀ h, c.dir = .hamt h → h.sizeChange ≤ 0 ∧ (seen → ∀ ls, Lists M ls → thr ≤ total ls)) →
    ∃ M', DInv env W bo (execAll env ops c).dir (execAll env ops c).st M' ∧ DRun env (coll env W) c M ops M' ∧
      ∀ h, (execAll env ops c).dir = .hamt h → (seen ∨ ∃ name, (DOp.remove name, DRes.done) ∈ ops.zip (results env ops c)) → ∀ ls, Lists M' ls → thr ≤ total ls
  | [], c, M, seen, hi, _, _, _, _, _, hs => by
    refine ⟨M, hi, .nil, fun h hh hr => ?_⟩
    rcases hr with hr | ⟨name, hr⟩
    · exact (hs h hh).2 hr
    · simp [results] at hr
  | op :: ops, c, M, seen, hi, hn, hsb, ht, ha, he, hs => by
    obtain ⟨M1, h1, h2, _⟩ := exec_dspec hreal hW hp0 hw hfix hi op (hn op (by simp)) (hsb op (by simp))
    have h3 := exec_thr (env := env) (ht op (by simp)) c
    have hstep : ∀ h, (exec env op c).2.dir = .hamt h → h.sizeChange ≤ 0 ∧
        ((seen ∨ ∃ name, op = .remove name ∧ (exec env op c).1 = .done) → ∀ ls, Lists M1 ls → thr ≤ total ls) := by
      intro h hh
      cases op with
      | add name nd => exact absurd rfl (ha _ (by simp) name nd)
      | remove name =>
        generalize hR : removeChild env c name = R
        obtain ⟨r, c'⟩ := R
        simp only [exec, hR] at hh h2 ⊢
        have hne : name ≠ [] := fun h => hn (.remove name) (by simp) (by rw [h]; rfl)
        have key := fun h' hh' => remove_exact hreal hnc hi hne (by omega) (fun h hd => (hs h hd).1) hR (h' := h') hh'
        cases r with
        | ok u =>
          dsimp only at hh h2 ⊢
          obtain ⟨k1, k2⟩ := key h hh
          refine ⟨k1, fun _ => ?_⟩
          rcases h2.keeps (by simp) with ⟨nm, e1, _, rfl⟩ | ⟨_, h⟩
          · cases e1; rw [← he]; exact k2 rfl
          · exact absurd rfl (h name rfl)
        | error e =>
          dsimp only at hh h2 ⊢
          obtain ⟨k1, k2⟩ := key h hh
          refine ⟨k1, fun hseen => ?_⟩
          rcases h2.keeps (by simp) with ⟨nm, _, e1, _⟩ | ⟨rfl, _⟩
          · cases e1
          · rcases hseen with hseen | ⟨_, _, h⟩
            · have hd : ∃ h0, c.dir = .hamt h0 := by
                cases hd : c.dir with
                | hamt h0 => exact ⟨h0, rfl⟩
                | basic b =>
                  rw [removeChild, hd] at hR
                  dsimp only at hR
                  generalize b.removeChild name = R at hR
                  obtain ⟨r1, b'⟩ := R
                  simp only [Prod.mk.injEq] at hR
                  obtain ⟨rfl, rfl⟩ := hR
                  cases hh
              obtain ⟨h0, hd⟩ := hd
              exact (hs h0 hd).2 hseen
            · cases h
      | _ =>
        obtain ⟨hx, hd, hsc⟩ := read_sc hi _ rfl hh
        obtain ⟨q1, q2⟩ := hs hx hd
        refine ⟨by omega, fun hseen => ?_⟩
        rcases h2.keeps (by simp) with ⟨nm, e1, _⟩ | ⟨rfl, _⟩
        · cases e1
        · rcases hseen with hseen | ⟨_, h, _⟩
          · exact q2 hseen
          · cases h
    obtain ⟨M2, h4, h5, h6⟩ := execAll_exact hreal hnc hW hp0 hw hfix thr h0 ops (seen ∨ ∃ name, op = .remove name ∧ (exec env op c).1 = .done) (c := (exec env op c).2) h1
      (fun o ho => hn o (by simp [ho])) (fun o ho => hsb o (by simp [ho])) (fun o ho => ht o (by simp [ho])) (fun o ho => ha o (by simp [ho])) (by rw [h3, he]) hstep
    refine ⟨M2, h4, .cons rfl h2 h5, fun h hh hr => h6 h hh ?_⟩
    rcases hr with hr | ⟨name, hr⟩
    · exact .inl (.inl hr)
    · rw [results, List.zip_cons_cons, List.mem_cons] at hr
      rcases hr with hr | hr
      · simp only [Prod.mk.injEq] at hr
        exact .inl (.inr ⟨name, hr.1.symm, hr.2.symm⟩)
      · exact .inr ⟨name, hr⟩

/-! ### Calls that enumerate nothing -/

/-- The same environment with other enumerations. -/
def Env.other (env : Env) (enum : Nat → Shard → (List Link → Bool) → EnumRun) (bad : Nat → Node → Prop) (cancel : Nat → Prop) : Env :=
  { env with enum := enum, bad := bad, cancel := cancel }

theorem needs_congr {env : Env} {E : Nat → Shard → (List Link → Bool) → EnumRun} {B : Nat → Node → Prop} {C : Nat → Prop} {d : HamtDir} {thr : Int} {name : Bytes}
    {nd : Option Node} {t k : Nat} (h : (d.needsToSwitchToBasicDir env thr name nd t k).2.2.2 = k) :
    d.needsToSwitchToBasicDir (env.other E B C) thr name nd t k = d.needsToSwitchToBasicDir env thr name nd t k := by
  have key : ∀ (d : HamtDir) (op : Int) (t : Nat), (HamtDir.needsToSwitchToBasicDir.decide env thr k d op t).2.2.2 = k →
      HamtDir.needsToSwitchToBasicDir.decide (env.other E B C) thr k d op t = HamtDir.needsToSwitchToBasicDir.decide env thr k d op t := by
    intro d op t h
    rw [HamtDir.needsToSwitchToBasicDir.decide] at h
    rw [HamtDir.needsToSwitchToBasicDir.decide, HamtDir.needsToSwitchToBasicDir.decide]
    by_cases hs : d.sizeChange + op ≥ 0
    · rw [if_pos hs, if_pos hs]
    · rw [if_neg hs] at h ⊢
      rw [if_neg hs]
      by_cases h0 : thr = 0
      · rw [HamtDir.sizeBelowThreshold, HamtDir.sizeBelowThreshold, if_pos h0, if_pos h0]
      · exfalso
        rw [HamtDir.sizeBelowThreshold, if_neg h0] at h
        generalize (env.enum k d.shard _).ret = R at h
        cases R <;> (dsimp only at h; omega)
  rw [HamtDir.needsToSwitchToBasicDir.eq_def] at h ⊢
  rw [HamtDir.needsToSwitchToBasicDir.eq_def]
  by_cases h0 : thr = 0
  · rw [if_pos h0, if_pos h0]
  · rw [if_neg h0] at h ⊢
    rw [if_neg h0]
    dsimp only at h ⊢
    have hE : d.shard.find (env.other E B C).H (env.other E B C).net name t = d.shard.find env.H env.net name t := rfl
    rw [hE]
    generalize d.shard.find env.H env.net name t = F at h ⊢
    obtain ⟨r, s, t'⟩ := F
    cases r with
    | ok o => cases o with | none => rfl | some l => exact key _ _ _ h
    | error e =>
      by_cases hx : e = .notExist
      · subst hx; exact key _ _ _ h
      · dsimp only
        split
        · rfl
        · rename_i heq; cases heq
        · rename_i heq; cases heq; exact absurd rfl hx
        · rfl

theorem sharding_congr {env : Env} {E : Nat → Shard → (List Link → Bool) → EnumRun} {B : Nat → Node → Prop} {C : Nat → Prop} (d : Basic) (t : Nat) :
    d.switchToSharding (env.other E B C) t = d.switchToSharding env t := by
  have key : ∀ (ls : List Link) (s : Shard) (t : Nat), Basic.setLinks (env.other E B C) ls s t = Basic.setLinks env ls s t := by
    intro ls
    induction ls with
    | nil => intro s t; rfl
    | cons l ls ih =>
      intro s t
      rw [Basic.setLinks, Basic.setLinks]
      have hE : s.setLinkOp (env.other E B C).H (env.other E B C).net l.name l t = s.setLinkOp env.H env.net l.name l t := rfl
      rw [hE]
      generalize s.setLinkOp env.H env.net l.name l t = R
      obtain ⟨r, s', t'⟩ := R
      cases r with
      | error e => rfl
      | ok u => exact ih s' t'
  rw [Basic.switchToSharding, Basic.switchToSharding]
  have hE : newShard (env.other E B C).width = newShard env.width := rfl
  rw [hE]
  cases newShard env.width with
  | error e => rfl
  | ok s => dsimp only; rw [key]

theorem exec_congr {env : Env} {E : Nat → Shard → (List Link → Bool) → EnumRun} {B : Nat → Node → Prop} {C : Nat → Prop} {op : DOp} {c : Cfg}
    (h : (exec env op c).2.k = c.k) : exec (env.other E B C) op c = exec env op c := by
  cases op with
  | add name nd =>
    simp only [exec, addChild] at h ⊢
    cases hd : c.dir with
    | basic b => dsimp only; rw [sharding_congr]; rfl
    | hamt hd' =>
      rw [hd] at h
      dsimp only at h ⊢
      have hk : (hd'.needsToSwitchToBasicDir env c.thr name (some nd) c.t c.k).2.2.2 = c.k := by
        generalize hd'.needsToSwitchToBasicDir env c.thr name (some nd) c.t c.k = N at h
        obtain ⟨r, h1, t1, k1⟩ := N
        cases r with
        | error e => exact h
        | ok sw =>
          cases sw with
          | true =>
            dsimp only at h
            generalize h1.switchToBasic env t1 = S at h
            obtain ⟨r, h2, t2⟩ := S
            cases r with
            | error e => exact h
            | ok b =>
              dsimp only at h
              generalize b.addChild name nd = R at h
              obtain ⟨r, b'⟩ := R
              cases r <;> exact h
          | false =>
            dsimp only at h
            generalize h1.addChild env name nd t1 c.st = S at h
            obtain ⟨r, h2, t2, st2⟩ := S
            cases r <;> exact h
      rw [needs_congr hk]
      rfl
  | remove name =>
    simp only [exec, removeChild] at h ⊢
    cases hd : c.dir with
    | basic b => rfl
    | hamt hd' =>
      rw [hd] at h
      dsimp only at h ⊢
      have hk : (hd'.needsToSwitchToBasicDir env c.thr name none c.t c.k).2.2.2 = c.k := by
        generalize hd'.needsToSwitchToBasicDir env c.thr name none c.t c.k = N at h
        obtain ⟨r, h1, t1, k1⟩ := N
        cases r with
        | error e => exact h
        | ok sw =>
          cases sw with
          | true =>
            dsimp only at h
            generalize h1.switchToBasic env t1 = S at h
            obtain ⟨r, h2, t2⟩ := S
            cases r with
            | error e => exact h
            | ok b =>
              dsimp only at h
              generalize b.removeChild name = R at h
              obtain ⟨r, b'⟩ := R
              cases r <;> exact h
          | false =>
            dsimp only at h
            generalize h1.removeChild env name t1 = S at h
            obtain ⟨r, h2, t2⟩ := S
            cases r <;> exact h
      rw [needs_congr hk]
      rfl
  | links =>
    simp only [exec, links] at h ⊢
    cases hd : c.dir with
    | basic b => rfl
    | hamt hd' => rw [hd] at h; dsimp only at h; omega
  | find name => rfl
  | forEach cb => rfl
  | getNode => rfl
  | reload => rfl
  | setCidBuilder b => rfl
  | setThreshold n => rfl

/-- In the history no call enumerates. -/
def quiet (env : Env) : List DOp → Cfg → Bool
  | [], _ => true
  | op :: ops, c => (exec env op c).2.k == c.k && quiet env ops (exec env op c).2

theorem execAll_congr {env : Env} {E : Nat → Shard → (List Link → Bool) → EnumRun} {B : Nat → Node → Prop} {C : Nat → Prop} : ∀ (ops : List DOp) (c : Cfg), quiet env ops c = true →
    execAll (env.other E B C) ops c = execAll env ops c ∧ results (env.other E B C) ops c = results env ops c
  | [], _, _ => ⟨rfl, rfl⟩
  | op :: ops, c, h => by
    simp only [quiet, Bool.and_eq_true, beq_iff_eq] at h
    obtain ⟨h1, h2⟩ := execAll_congr (E := E) (B := B) (C := C) ops _ h.2
    rw [execAll, exec_congr h.1, h1, results, exec_congr h.1, h2]
    exact ⟨rfl, rfl⟩

/-! ### Directories that are never sharded -/

theorem lists_mapOf {ls : List Link} (h : (ls.map Link.name).Nodup) : Lists (mapOf ls) ls := by
  refine ⟨h, fun k v => ?_⟩
  rw [mapOf]
  constructor
  · intro hf
    cases he : ls.find? (fun l => l.name = k) with
    | none => rw [he] at hf; cases hf
    | some l =>
      rw [he] at hf
      have h1 := List.find?_some he
      have h2 := List.mem_of_find?_eq_some he
      simp only [Option.map_some, Option.some.injEq] at hf
      obtain ⟨nm, sz, tg⟩ := l
      have h1 : nm = k := of_decide_eq_true h1
      subst h1
      rw [← hf]
      exact h2
  · intro hm
    induction ls with
    | nil => cases hm
    | cons x ls ih =>
      rw [List.map_cons, List.nodup_cons] at h
      rw [List.find?_cons]
      rcases List.mem_cons.mp hm with rfl | hm
      · simp [Link.name, linkVal, Link.tsize, Link.target]
      · have hx : x.name ≠ k := by
          rintro rfl
          exact h.1 (List.mem_map.mpr ⟨_, hm, rfl⟩)
        simp only [hx, decide_false]
        exact ih h.2 hm

theorem exec_basic {env : Env} {c : Cfg} {b : Basic} {M : NMap} (hd : c.dir = .basic b) (hi : BInv b M) (h0 : c.thr = 0) (op : DOp) (hop : ∀ n, op ≠ .setThreshold n) :
    ∃ b' M', (exec env op c).2.dir = .basic b' ∧ BInv b' M' ∧
      DStep (fun _ _ => False) (Excuse env c (exec env op c).2) (Cancelled env c (exec env op c).2) M op (exec env op c).1 M' := by
  cases op with
  | add name nd =>
    obtain ⟨b', g1, g2, _⟩ := baddLink hi name (makeLink [] nd)
    have hN : b.needsToSwitchToHAMTDir c.thr name nd = false := by rw [Basic.needsToSwitchToHAMTDir, if_pos h0]
    simp only [exec, addChild, hd, hN, if_true, Basic.addChild, g1]
    exact ⟨b', _, rfl, g2, .add⟩
  | remove name =>
    simp only [exec, removeChild, hd]
    rcases bremove hi name with ⟨h1, h2⟩ | ⟨v, b', h1, h2, h3, _⟩
    · rw [h2]; exact ⟨b, M, rfl, hi, .removeAbsent h1⟩
    · rw [h2]; exact ⟨b', _, rfl, h3, .remove h1⟩
  | find name =>
    simp only [exec, find, hd, Basic.find, bget hi]
    cases hm : M name with
    | none => exact ⟨b, M, rfl, hi, .findAbsent hm⟩
    | some v =>
      simp only [Option.map_some]
      cases hnet : env.net c.t (entry name v).target with
      | true => exact ⟨b, M, rfl, hi, .find hm⟩
      | false => exact ⟨b, M, rfl, hi, .findFail (.fetch ⟨c.t, _, le_refl _, by simp, hnet⟩)⟩
  | links => simp only [exec, links, hd]; exact ⟨b, M, rfl, hi, .links hi.lists⟩
  | forEach cb =>
    simp only [exec, forEachLink, hd, Basic.forEachLink]
    rcases each_go cb b.links 0 with ⟨h1, h2⟩ | ⟨pre, l, more, h1, h2, h3, h4⟩
    · rw [h1]; exact ⟨b, M, rfl, hi, .each hi.lists (fun j hj => by simpa using h2 j hj)⟩
    · rw [h2]; exact ⟨b, M, rfl, hi, .eachStop (more := more) (by rw [← h1]; exact hi.lists) (fun j hj => by simpa using h3 j hj) (by simpa using h4)⟩
  | getNode => simp only [exec, getNode, hd]; exact ⟨b, M, rfl, hi, .getNode⟩
  | reload => simp only [exec, getNode, hd, fromNode_basic hi]; exact ⟨_, M, rfl, ⟨hi.lists, rfl, hi.isDir⟩, .reload⟩
  | setCidBuilder bd => simp only [exec, setCidBuilder, hd]; exact ⟨_, M, rfl, hi.setBuilder bd, .setCidBuilder⟩
  | setThreshold n => exact absurd rfl (hop n)

theorem execAll_basic {env : Env} : ∀ (ops : List DOp) {c : Cfg} {b : Basic} {M : NMap}, c.dir = .basic b → BInv b M → c.thr = 0 → (∀ op ∈ ops, ∀ n, op ≠ .setThreshold n) →
    ∃ b' M', (execAll env ops c).dir = .basic b' ∧ BInv b' M' ∧ DRun env (fun _ _ => False) c M ops M'
  | [], c, b, M, hd, hi, _, _ => ⟨b, M, hd, hi, .nil⟩
  | op :: ops, c, b, M, hd, hi, h0, ht => by
    obtain ⟨b1, M1, h1, h2, h3⟩ := exec_basic (env := env) hd hi h0 op (ht op (by simp))
    obtain ⟨b2, M2, h4, h5, h6⟩ := execAll_basic (env := env) ops h1 h2 ((exec_thr (ht op (by simp)) c).trans h0) (fun o ho => ht o (by simp [ho]))
    exact ⟨b2, M2, h4, h5, .cons rfl h3 h6⟩

/-- What a run leaves in the map. -/
theorem DRun.last {env : Env} {coll : Bytes → Bytes → Prop} {c : Cfg} {M M' : NMap} {ops : List DOp} (h : DRun env coll c M ops M') (k : Bytes) :
    M' k = lastWrite k (M k) (ops.zip (results env ops c)) := by
  induction h with
  | nil => rfl
  | cons he hs _ ih =>
    rw [results, he, List.zip_cons_cons, ih]
    dsimp only
    cases hs <;> simp only [lastWrite, NMap.upd, eq_comm]

theorem Env.Valid.hp {env : Env} {lg : Nat} (h : env.Valid lg) : HP env.H lg := by
  obtain ⟨s, hs⟩ := h.accepted
  rw [h.width] at hs
  exact (hp_of_new h.hash hs).1

/-- A loaded basic directory. -/
theorem loaded_inv {data : Bytes} {ls : List Link} {b : Builder} {d : Basic} (h : newDirectoryFromNode (.proto data ls b) = .ok (.basic d)) (hu : (ls.map Link.name).Nodup) :
    BInv d (mapOf ls) ∧ d.links = ls ∧ d.builder = b ∧ d.data = data := by
  rw [newDirectoryFromNode] at h
  split at h
  · cases h
  · rename_i fs hfs
    split at h
    · rename_i ht
      rw [ofNode_eq] at h
      cases h
      exact ⟨⟨lists_mapOf hu, rfl, fs, hfs, ht⟩, rfl, rfl, rfl⟩
    · split at h
      · split at h <;> cases h
      · cases h

theorem mapOf_empty {ls : List Link} (hne : [] ∉ ls.map Link.name) : mapOf ls [] = none := by
  rw [mapOf, Option.map_eq_none_iff, List.find?_eq_none]
  intro l hl h
  exact hne (List.mem_map.mpr ⟨l, hl, of_decide_eq_true h⟩)

theorem coll_iff {env : Env} {lg : Nat} {a b : Bytes} (h : coll env (· = lg) a b) : Collide env.H lg a b := by
  obtain ⟨_, rfl, h⟩ := h; exact h

theorem DRun.mono {env : Env} {p q : Bytes → Bytes → Prop} (hpq : ∀ a b, p a b → q a b) {c : Cfg} {M M' : NMap} {ops : List DOp} (h : DRun env p c M ops M') : DRun env q c M ops M' := by
  induction h with
  | nil => exact .nil
  | cons he hs _ ih =>
    refine .cons he ?_ ih
    cases hs with
    | addDeep h1 h2 hne hc => exact .addDeep h1 h2 hne (hpq _ _ hc)
    | add => exact .add
    | addFail h => exact .addFail h
    | remove h => exact .remove h
    | removeAbsent h => exact .removeAbsent h
    | removeFail h => exact .removeFail h
    | find h => exact .find h
    | findAbsent h => exact .findAbsent h
    | findFail h => exact .findFail h
    | links h => exact .links h
    | linksCancelled h hc => exact .linksCancelled h hc
    | linksFail h hx => exact .linksFail h hx
    | each h hcb => exact .each h hcb
    | eachStop h hcb hl => exact .eachStop h hcb hl
    | eachFail h hcb hx => exact .eachFail h hcb hx
    | getNode => exact .getNode
    | getNodeFail h => exact .getNodeFail h
    | reload => exact .reload
    | reloadFail h => exact .reloadFail h
    | setCidBuilder => exact .setCidBuilder
    | setThreshold => exact .setThreshold

theorem DRun.after {env : Env} {coll : Bytes → Bytes → Prop} {c : Cfg} {M M' : NMap} {ops : List DOp} (h : DRun env coll c M ops M') : M' = mapAfter env M ops c :=
  funext fun k => h.last k

theorem execAll_append (env : Env) : ∀ (a b : List DOp) (c : Cfg), execAll env (a ++ b) c = execAll env b (execAll env a c)
  | [], _, _ => rfl
  | _ :: a, b, c => execAll_append env a b _

theorem results_append (env : Env) : ∀ (a b : List DOp) (c : Cfg), results env (a ++ b) c = results env a c ++ results env b (execAll env a c)
  | [], _, _ => rfl
  | op :: a, b, c => by rw [List.cons_append, results, results_append env a b, results, execAll, List.cons_append]

theorem results_length (env : Env) : ∀ (a : List DOp) (c : Cfg), (results env a c).length = a.length
  | [], _ => rfl
  | op :: a, c => by rw [results, List.length_cons, results_length env a, List.length_cons]

theorem DRun.append {env : Env} {coll : Bytes → Bytes → Prop} {c : Cfg} {M M' M'' : NMap} {a b : List DOp} (h1 : DRun env coll c M a M') (h2 : DRun env coll (execAll env a c) M' b M'') :
    DRun env coll c M (a ++ b) M'' := by
  induction h1 with
  | nil => exact h2
  | cons he hs _ ih =>
    refine .cons he hs (ih ?_)
    rw [execAll, he] at h2
    exact h2

theorem pbBuilder_fix (bd : Option Builder) : pbBuilder (some (pbBuilder bd)) = pbBuilder bd := by
  simp only [pbBuilder, Option.getD_some]
  generalize bd.getD .v0 = b
  unfold Builder.withCodec
  split <;> simp_all

theorem execAll_thr {env : Env} : ∀ (ops : List DOp) (c : Cfg), (∀ op ∈ ops, ∀ n, op ≠ .setThreshold n) → (execAll env ops c).thr = c.thr
  | [], _, _ => rfl
  | op :: ops, c, h => by rw [execAll, execAll_thr ops _ (fun o ho => h o (by simp [ho])), exec_thr (h op (by simp))]

theorem reload_sc {env : Env} {c c' : Cfg} (h : exec env .reload c = (.done, c')) {hd : HamtDir} (he : c'.dir = .hamt hd) : hd.sizeChange = 0 := by
  rw [exec] at h
  generalize getNode env c = R at h
  obtain ⟨r, c1⟩ := R
  cases r with
  | error e => cases h
  | ok nd =>
    dsimp only at h
    cases hn : newDirectoryFromNode nd with
    | error e => rw [hn] at h; cases h
    | ok d =>
      rw [hn] at h
      cases h
      dsimp only at he
      subst he
      unfold newDirectoryFromNode at hn
      repeat' split at hn
      all_goals first | cases hn; rfl | cases hn

theorem nameLt_irrefl : ∀ a, ¬ NameLt a a
  | [], h => h
  | _ :: xs, h => h.elim (UInt8.lt_irrefl _) (fun h => nameLt_irrefl xs h.2)

theorem nameLt_trans : ∀ a b c, NameLt a b → NameLt b c → NameLt a c
  | [], [], _, h, _ => False.elim h
  | _ :: _, [], _, h, _ => False.elim h
  | _, _ :: _, [], _, h => False.elim h
  | [], _ :: _, _ :: _, _, _ => trivial
  | x :: xs, y :: ys, z :: zs, h1, h2 => by
    rcases h1 with h1 | ⟨rfl, h1⟩
    · rcases h2 with h2 | ⟨rfl, h2⟩
      · exact .inl (UInt8.lt_trans h1 h2)
      · exact .inl h1
    · rcases h2 with h2 | ⟨rfl, h2⟩
      · exact .inl h2
      · exact .inr ⟨rfl, nameLt_trans xs ys zs h1 h2⟩

theorem nameLt_total : ∀ a b, NameLt a b ∨ a = b ∨ NameLt b a
  | [], [] => .inr (.inl rfl)
  | [], _ :: _ => .inl trivial
  | _ :: _, [] => .inr (.inr trivial)
  | x :: xs, y :: ys => by
    rcases (show x < y ∨ x = y ∨ y < x by simp only [UInt8.lt_iff_toNat_lt, ← UInt8.toNat_inj]; omega) with h | rfl | h
    · exact .inl (.inl h)
    · rcases nameLt_total xs ys with h | rfl | h
      · exact .inl (.inr ⟨rfl, h⟩)
      · exact .inr (.inl rfl)
      · exact .inr (.inr (.inr ⟨rfl, h⟩))
    · exact .inr (.inr (.inl h))

theorem encoded_perm {d : Bytes} {b : Builder} {l1 l2 : List Link} (hp : l1.Perm l2) (hn : (l1.map Link.name).Nodup) : encoded (.proto d l1 b) = encoded (.proto d l2 b) := by
  rw [encoded, encoded]
  congr 1
  have tr : ∀ a b c : Link, (!decide (NameLt b.name a.name)) = true → (!decide (NameLt c.name b.name)) = true → (!decide (NameLt c.name a.name)) = true := by
    intro a b c h1 h2
    simp only [Bool.not_eq_true', decide_eq_false_iff_not] at h1 h2 ⊢
    intro h
    rcases nameLt_total a.name b.name with h3 | h3 | h3
    · exact h2 (nameLt_trans _ _ _ h h3)
    · rw [h3] at h; exact h2 h
    · exact h1 h3
  have tot : ∀ a b : Link, ((!decide (NameLt b.name a.name)) || (!decide (NameLt a.name b.name))) = true := by
    intro a b
    by_cases h1 : NameLt b.name a.name
    · by_cases h2 : NameLt a.name b.name
      · exact absurd (nameLt_trans _ _ _ h1 h2) (nameLt_irrefl _)
      · simp [h2]
    · simp [h1]
  have s1 := List.pairwise_mergeSort (le := fun x y : Link => !decide (NameLt y.name x.name)) tr tot l1
  have s2 := List.pairwise_mergeSort (le := fun x y : Link => !decide (NameLt y.name x.name)) tr tot l2
  refine List.Perm.eq_of_pairwise ?_ s1 s2 ((List.mergeSort_perm _ _).trans (hp.trans (List.mergeSort_perm _ _).symm))
  intro x y hx hy h1 h2
  simp only [Bool.not_eq_true', decide_eq_false_iff_not] at h1 h2
  have hx' : x ∈ l1 := (List.mergeSort_perm _ _).mem_iff.mp hx
  have hy' : y ∈ l1 := hp.mem_iff.mpr ((List.mergeSort_perm _ _).mem_iff.mp hy)
  have hname : x.name = y.name := by
    rcases nameLt_total x.name y.name with h | h | h
    · exact absurd h h2
    · exact h
    · exact absurd h h1
  exact List.inj_on_of_nodup_map hn hx' hy' hname

end Unixfs.Dir
