import Verif.Hamt.Walk
import Mathlib.Data.Multiset.AddSub
import Mathlib.Data.Multiset.Basic
import Mathlib.Algebra.Order.Group.Multiset
import Mathlib.Algebra.BigOperators.Group.List.Basic
import Mathlib.Tactic.Abel

/-! # The parallel walk: conserved quantities

The definitions in this file belong to proofs; they model no code.
-/

namespace Unixfs.Hamt

/-! ### Folds over shards -/

section Fold

variable {α : Type} [AddCommMonoid α] (f : Link → α) (g : Node → α) (h : α)

mutual
/-- Sum over the shard that is stored in a node: `f` of every entry, `g` of every link to a shard,
`h` for every shard. -/
def nfold : Node → α
  | .proto d ls b =>
    match newHamtFromDag (.proto d ls b) with
    | .ok s => h + lfold s.size ls
    | .error _ => 0
  | .raw .. => 0
  | .other .. => 0
def lfold (size : Nat) : List Link → α
  | [] => 0
  | .mk n sz t :: ls =>
    (match childLinkType size (.mk n sz t) with
      | .ok .shardValueLink => f (.mk (n.drop (maxpadlen size)) sz t)
      | .ok .shardLink => g t + nfold t
      | .error _ => 0) + lfold size ls
end

mutual
def sfold : Shard → α
  | .mk size _ slots _ _ _ => h + slfold size slots
def slfold (size : Nat) : List Slot → α
  | [] => 0
  | .link l :: ss => lfold f g h size [l] + slfold size ss
  | .child c :: ss =>
    (match c.val with
      | some l => f (.mk c.key l.tsize l.target)
      | none => sfold c) + slfold size ss
end

theorem slfold_links (size : Nat) (ls : List Link) : slfold f g h size (ls.map Slot.link) = lfold f g h size ls := by
  induction ls with
  | nil => simp [slfold, lfold]
  | cons l ls ih =>
    obtain ⟨n, sz, t⟩ := l
    rw [List.map_cons, slfold, ih, lfold, lfold, lfold]
    simp

theorem nfold_load {c : Node} {s : Shard} (hl : newHamtFromDag c = .ok s) : nfold f g h c = sfold f g h s := by
  cases c with
  | proto d ls b =>
    rw [nfold, hl]
    dsimp only
    rw [newHamtFromDag] at hl
    split at hl
    · cases hl
    · split at hl
      · cases hl
      · split at hl
        · cases hl
        · split at hl
          · cases hl
          · simp only [Except.ok.injEq] at hl
            subst hl
            rw [sfold, slfold_links, Shard.size]
  | raw => cases hl
  | other => cases hl

/-- Sum over a batch of work. -/
def Frontier.sum (l : Frontier) : α := (l.shards.map (sfold f g h)).sum + (l.cids.map (fun c => g c + nfold f g h c)).sum

def resSum : Except Err Frontier → α
  | .ok l => l.sum f g h
  | .error _ => 0

theorem walkSlots_sum (size : Nat) (ss : List Slot) (r : Frontier) :
    ∃ d, ((walkSlots size ss r).1.map f).sum + resSum f g h (walkSlots size ss r).2 + d = slfold f g h size ss + r.sum f g h ∧
      (∀ l, (walkSlots size ss r).2 = .ok l → d = 0) := by
  induction ss generalizing r with
  | nil => exact ⟨0, by simp [walkSlots, slfold, resSum], fun _ _ => rfl⟩
  | cons x ss ih =>
    cases x with
    | link l =>
      obtain ⟨n, sz, t⟩ := l
      rw [walkSlots, slfold, lfold, lfold]
      cases hc : childLinkType size (.mk n sz t) with
      | error e => exact ⟨0 + 0 + slfold f g h size ss + r.sum f g h, by simp [resSum], fun _ h => by cases h⟩
      | ok lt =>
        cases lt with
        | shardValueLink =>
          dsimp only
          cases hm : makeShardValue size (.mk n sz t) with
          | error e => exact ⟨f (.mk (n.drop (maxpadlen size)) sz t) + 0 + slfold f g h size ss + r.sum f g h, by simp [resSum], fun _ h => by cases h⟩
          | ok sv =>
            dsimp only
            have hsv : Link.rename (sv.val.getD (.mk [] 0 default)) sv.key = .mk (n.drop (maxpadlen size)) sz t := by
              rw [makeShardValue, makeShard] at hm
              split at hm
              · cases hm
              · split at hm
                · cases hm
                · split at hm
                  · cases hm
                  · simp only [Except.ok.injEq] at hm
                    subst hm
                    rfl
            obtain ⟨d, h1, h2⟩ := ih r
            refine ⟨d, ?_, h2⟩
            rw [hsv, List.map_cons, List.sum_cons, add_zero, add_assoc, add_assoc, add_assoc, ← h1]
            abel
        | shardLink =>
          dsimp only
          obtain ⟨d, h1, h2⟩ := ih { r with cids := r.cids ++ [t] }
          refine ⟨d, Eq.trans h1 ?_, h2⟩
          simp only [Frontier.sum, List.map_append, List.sum_append, List.map_cons, List.map_nil, List.sum_cons, List.sum_nil, add_zero]
          abel
    | child c =>
      rw [walkSlots, slfold]
      cases hv : c.val with
      | some l =>
        dsimp only
        obtain ⟨d, h1, h2⟩ := ih r
        refine ⟨d, ?_, h2⟩
        rw [List.map_cons, List.sum_cons, add_assoc, add_assoc, add_assoc, ← h1]
        abel
      | none =>
        dsimp only
        obtain ⟨d, h1, h2⟩ := ih { r with shards := r.shards ++ [c] }
        refine ⟨d, ?_, h2⟩
        rw [h1]
        simp only [Frontier.sum, List.map_append, List.sum_append, List.map_cons, List.map_nil, List.sum_cons, List.sum_nil, add_zero]
        abel

theorem walk_sum (s : Shard) :
    ∃ d, h + ((s.walkChildren.1.map f).sum + resSum f g h s.walkChildren.2) + d = sfold f g h s ∧ (∀ l, s.walkChildren.2 = .ok l → d = 0) := by
  obtain ⟨size, bf, slots, b, k, v⟩ := s
  obtain ⟨d, h1, h2⟩ := walkSlots_sum f g h size slots ⟨[], []⟩
  refine ⟨d, ?_, h2⟩
  rw [sfold]
  have h3 : (Frontier.mk [] []).sum f g h = 0 := by simp [Frontier.sum]
  rw [h3, add_zero] at h1
  rw [← h1, add_assoc]
  rfl

theorem sum_set {β : Type} (F : β → α) : ∀ (l : List β) (i : Nat) (a : β), l[i]? = some a →
    ∃ rest, (l.map F).sum = F a + rest ∧ ∀ b, ((l.set i b).map F).sum = F b + rest
  | [], i, a, h => by simp at h
  | x :: xs, 0, a, h => by
    simp only [List.getElem?_cons_zero, Option.some.injEq] at h
    subst h
    exact ⟨(xs.map F).sum, by simp, fun b => by simp⟩
  | x :: xs, i + 1, a, h => by
    rw [List.getElem?_cons_succ] at h
    obtain ⟨rest, h1, h2⟩ := sum_set F xs i a h
    refine ⟨F x + rest, ?_, fun b => ?_⟩
    · rw [List.map_cons, List.sum_cons, h1]; abel
    · rw [List.set_cons_succ, List.map_cons, List.sum_cons, h2]; abel

end Fold

/-! ### What is left to do -/

/-- Entries, and links to shards. -/
abbrev Tally := Multiset Link × Multiset Node

def fT (l : Link) : Tally := ({l}, 0)
def gT (c : Node) : Tally := (0, {c})

/-- All entries below, and all links to shards. -/
def nTally (c : Node) : Tally := nfold fT gT 0 c
def sTally (s : Shard) : Tally := sfold fT gT 0 s
def Frontier.tally (l : Frontier) : Tally := (l.shards.map sTally).sum + (l.cids.map (fun c => gT c + nTally c)).sum
def resTally : Except Err Frontier → Tally
  | .ok l => l.tally
  | .error _ => 0

def Cont.tally : Cont → Tally
  | .shards ss cs => (ss.map sTally).sum + (cs.map (fun c => gT c + nTally c)).sum
  | .many pend => (pend.map nTally).sum

def Worker.tally : Worker → Tally
  | .idle => 0
  | .shards ss cs => (ss.map sTally).sum + (cs.map (fun c => gT c + nTally c)).sum
  | .emit vs r k => (vs.map fT).sum + resTally r + k.tally
  | .out l k => l.tally + k.tally
  | .visit cs acc => (cs.map (fun c => gT c + nTally c)).sum + (acc.map nTally).sum
  | .many pend => (pend.map nTally).sum
  | .done => 0
  | .exit => 0

def Main.tally : Main → Tally
  | .loop next todo _ => (next.elim 0 Frontier.tally) + (todo.map Frontier.tally).sum
  | _ => 0

def Walk.tally (g : Walk) : Tally := ((g.got : Multiset Link), (g.visited : Multiset Node)) + (g.workers.map Worker.tally).sum + g.main.tally

theorem Cont.resume_tally (k : Cont) : k.resume.tally = k.tally := by cases k <;> rfl

theorem walk_tally (s : Shard) :
    ∃ d, (s.walkChildren.1.map fT).sum + resTally s.walkChildren.2 + d = sTally s ∧ (∀ l, s.walkChildren.2 = .ok l → d = 0) := by
  obtain ⟨d, h1, h2⟩ := walk_sum fT gT 0 s
  refine ⟨d, ?_, h2⟩
  rw [zero_add] at h1
  rw [sTally, ← h1]
  cases s.walkChildren.2 <;> rfl

/-- The effect of a step on the tally. -/
inductive TallyStep (g g' : Walk) : Prop
  | same (h : g'.tally = g.tally)
  | lost (d : Tally) (h : g'.tally + d = g.tally) (hs : g'.stopped)
  /-- A batch whose walk fails. -/
  | failing (d : Tally) (h : g'.tally + d = g.tally) (hs : ∃ vs e k, Worker.emit vs (.error e) k ∈ g'.workers)
  | skip (c : Node) (hc : c ∈ g.visited) (h : g'.tally + (gT c + nTally c) = g.tally)

variable {bad : Node → Prop} {stop : List Link → Bool}

theorem fail_stopped (g : Walk) (i : Nat) (e : Err) : (g.fail i e).stopped := by
  right; simp [Walk.fail]

theorem step_tally {g g' : Walk} (hq : ∀ todo p, g.main = .loop none todo p → todo = []) (h : Step bad stop g g') : TallyStep g g' := by
  cases h with
  | feed hm hi =>
    rename_i i l todo p
    obtain ⟨rest, h1, h2⟩ := sum_set Worker.tally _ _ _ hi
    apply TallyStep.same
    simp only [Walk.tally, Walk.move, hm, h1, h2, Worker.tally, Main.tally]
    cases todo with
    | nil => simp [Frontier.tally]; abel
    | cons x xs => simp [Frontier.tally]; abel
  | feedClosed hm hi =>
    obtain ⟨rest, h1, h2⟩ := sum_set Worker.tally _ _ _ hi
    apply TallyStep.same
    simp only [Walk.tally, Walk.move, h1, h2, Worker.tally]
  | shard hi =>
    rename_i i s ss cs
    obtain ⟨rest, h1, h2⟩ := sum_set Worker.tally _ _ _ hi
    obtain ⟨d, h3, h4⟩ := walk_tally s
    cases hr : s.walkChildren.2 with
    | ok l =>
      apply TallyStep.same
      rw [h4 _ hr, add_zero, hr] at h3
      simp only [Walk.tally, Walk.move, h1, h2, Worker.tally, Cont.tally, List.map_cons, List.sum_cons, ← h3]
      abel
    | error e =>
      refine .failing d ?_ ⟨_, e, _, List.mem_of_getElem? (List.getElem?_set_self (by have := List.getElem?_eq_some_iff.mp hi; exact this.1))⟩
      rw [hr] at h3
      simp only [Walk.tally, Walk.move, h1, h2, Worker.tally, Cont.tally, List.map_cons, List.sum_cons, ← h3]
      abel
  | shardsDone hi =>
    obtain ⟨rest, h1, h2⟩ := sum_set Worker.tally _ _ _ hi
    apply TallyStep.same
    simp only [Walk.tally, Walk.move, h1, h2, Worker.tally]
    simp
  | emitSend hi hr =>
    rename_i i v vs r k
    obtain ⟨rest, h1, h2⟩ := sum_set Worker.tally _ _ _ hi
    apply TallyStep.same
    have : (((g.got ++ [v] : List Link) : Multiset Link), (g.visited : Multiset Node)) = ((g.got : Multiset Link), (g.visited : Multiset Node)) + fT v := by
      rw [fT, Prod.mk_add_mk, add_zero, ← Multiset.coe_singleton, Multiset.coe_add]
    rw [Walk.receive]
    split
    all_goals
      simp only [Walk.tally, Walk.move, h1, h2, Worker.tally, this, List.map_cons, List.sum_cons]
      abel
  | emitDrop hi hc =>
    rename_i i v vs r k
    obtain ⟨rest, h1, h2⟩ := sum_set Worker.tally _ _ _ hi
    refine .lost (fT v) ?_ (.inl hc)
    simp only [Walk.tally, Walk.move, h1, h2, Worker.tally, List.map_cons, List.sum_cons]
    abel
  | emitErr hi =>
    rename_i i e k
    obtain ⟨rest, h1, h2⟩ := sum_set Worker.tally _ _ _ hi
    refine .lost (Worker.tally (.emit [] (.error e) k)) ?_ (fail_stopped _ _ _)
    simp only [Walk.tally, Walk.fail, h1, h2, Worker.tally]
    abel
  | emitOk hi =>
    obtain ⟨rest, h1, h2⟩ := sum_set Worker.tally _ _ _ hi
    apply TallyStep.same
    simp only [Walk.tally, Walk.move, h1, h2, Worker.tally, resTally]
    simp
  | outSend hm hi =>
    rename_i i l k next todo p
    obtain ⟨rest, h1, h2⟩ := sum_set Worker.tally _ _ _ hi
    apply TallyStep.same
    cases next with
    | none =>
      simp only [Walk.tally, Walk.move, h1, h2, hm, Main.push, Main.tally, Cont.resume_tally, Option.elim]
      rw [Worker.tally]
      abel
    | some x =>
      simp only [Walk.tally, Walk.move, h1, h2, hm, Main.push, Main.tally, Cont.resume_tally, Option.elim, List.map_append, List.sum_append, List.map_cons,
        List.map_nil, List.sum_cons, List.sum_nil, add_zero]
      rw [Worker.tally]
      abel
  | outCancel hi hc =>
    rename_i i l k
    obtain ⟨rest, h1, h2⟩ := sum_set Worker.tally _ _ _ hi
    refine .lost (Worker.tally (.out l k)) ?_ hc
    simp only [Walk.tally, Walk.move, h1, h2, Worker.tally]
    abel
  | visitNew hi hv =>
    rename_i i c cs acc
    obtain ⟨rest, h1, h2⟩ := sum_set Worker.tally _ _ _ hi
    apply TallyStep.same
    have : ((g.got : Multiset Link), ((c :: g.visited : List Node) : Multiset Node)) = ((g.got : Multiset Link), (g.visited : Multiset Node)) + gT c := by
      rw [gT, Prod.mk_add_mk, add_zero, ← Multiset.cons_coe, ← Multiset.singleton_add, add_comm]
    simp only [Walk.tally, Walk.move, h1, h2, Worker.tally, this, List.map_cons, List.sum_cons, List.map_append, List.sum_append, List.map_nil, List.sum_nil, add_zero]
    abel
  | visitOld hi hv =>
    rename_i i c cs acc
    obtain ⟨rest, h1, h2⟩ := sum_set Worker.tally _ _ _ hi
    refine .skip c hv ?_
    simp only [Walk.tally, Walk.move, h1, h2, Worker.tally, List.map_cons, List.sum_cons]
    abel
  | visitDone hi =>
    obtain ⟨rest, h1, h2⟩ := sum_set Worker.tally _ _ _ hi
    apply TallyStep.same
    simp only [Walk.tally, Walk.move, h1, h2, Worker.tally]
    simp
  | manyGot hi hc hb hl =>
    rename_i i pend c s
    obtain ⟨rest, h1, h2⟩ := sum_set Worker.tally _ _ _ hi
    obtain ⟨d, h3, h4⟩ := walk_tally s
    have h5 : (pend.map nTally).sum = nTally c + ((pend.erase c).map nTally).sum := by
      rw [((List.perm_cons_erase hc).map nTally).sum_eq, List.map_cons, List.sum_cons]
    have h6 : nTally c = sTally s := nfold_load _ _ _ hl
    cases hr : s.walkChildren.2 with
    | ok l =>
      apply TallyStep.same
      rw [h4 _ hr, add_zero, hr] at h3
      simp only [Walk.tally, Walk.move, h1, h2, Worker.tally, Cont.tally, h5, h6, ← h3]
    | error e =>
      refine .failing d ?_ ⟨_, e, _, List.mem_of_getElem? (List.getElem?_set_self (by have := List.getElem?_eq_some_iff.mp hi; exact this.1))⟩
      rw [hr] at h3
      simp only [Walk.tally, Walk.move, h1, h2, Worker.tally, Cont.tally, h5, h6, ← h3]
      abel
  | manyDecode hi hc hb hl =>
    rename_i i pend c e
    obtain ⟨rest, h1, h2⟩ := sum_set Worker.tally _ _ _ hi
    refine .lost (Worker.tally (.many pend)) ?_ (fail_stopped _ _ _)
    simp only [Walk.tally, Walk.fail, h1, h2, Worker.tally]
    abel
  | manyErr e hi hc =>
    rename_i i pend
    obtain ⟨rest, h1, h2⟩ := sum_set Worker.tally _ _ _ hi
    refine .lost (Worker.tally (.many pend)) ?_ (fail_stopped _ _ _)
    simp only [Walk.tally, Walk.fail, h1, h2, Worker.tally]
    abel
  | manyDone hi =>
    obtain ⟨rest, h1, h2⟩ := sum_set Worker.tally _ _ _ hi
    apply TallyStep.same
    simp only [Walk.tally, Walk.move, h1, h2, Worker.tally]
    simp
  | doneSend hm hi =>
    rename_i i next todo p
    obtain ⟨rest, h1, h2⟩ := sum_set Worker.tally _ _ _ hi
    apply TallyStep.same
    by_cases hc : p - 1 = 0 ∧ next.isNone
    · have hn : next = none := by simpa using hc.2
      subst hn
      have := hq _ _ hm
      subst this
      simp only [Walk.tally, Walk.move, h1, h2, Worker.tally, if_pos hc, hm, Main.tally]
      simp
    · simp only [Walk.tally, Walk.move, h1, h2, Worker.tally, if_neg hc, hm, Main.tally]
  | doneCancel hi hc =>
    obtain ⟨rest, h1, h2⟩ := sum_set Worker.tally _ _ _ hi
    apply TallyStep.same
    simp only [Walk.tally, Walk.move, h1, h2, Worker.tally]
  | mainCancel hm hc =>
    refine .lost g.main.tally ?_ hc
    simp only [Walk.tally, Main.tally]
    abel
  | wait hm hw =>
    apply TallyStep.same
    simp only [Walk.tally, hm]
    cases g.gerr <;> rfl
  | errSend hm hr => exact .same (by simp only [Walk.tally, hm]; rfl)
  | errDrop hm hc => exact .same (by simp only [Walk.tally, hm]; rfl)
  | recvClosed hm hr => exact .same rfl

end Unixfs.Hamt
