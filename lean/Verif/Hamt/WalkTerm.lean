import Verif.Hamt.WalkCtl
import Verif.Spec.Walk

/-! # The parallel walk: termination and absence of deadlock

The definitions in this file belong to proofs; they model no code.
-/

namespace Unixfs.Hamt

variable {bad : Node → Prop} {stop : List Link → Bool}

/-! ### A measure -/

def f1 (_ : Link) : Nat := 1
def g1 (_ : Node) : Nat := 1

/-- Bounds the steps that walking this shard still needs. -/
def sCost (s : Shard) : Nat := sfold f1 g1 9 s
def nCost (c : Node) : Nat := nfold f1 g1 9 c
def Frontier.cost (l : Frontier) : Nat := 5 + ((l.shards.map sCost).sum + (l.cids.map (fun c => 1 + nCost c)).sum)

def resCost : Except Err Frontier → Nat
  | .ok l => 2 + l.cost
  | .error _ => 0

def Cont.cost : Cont → Nat
  | .shards ss cs => 5 + ((ss.map sCost).sum + (cs.map (fun c => 1 + nCost c)).sum)
  | .many pend => 3 + (pend.map nCost).sum

def Worker.cost : Worker → Nat
  | .idle => 1
  | .shards ss cs => 5 + ((ss.map sCost).sum + (cs.map (fun c => 1 + nCost c)).sum)
  | .emit vs r k => 1 + vs.length + resCost r + k.cost
  | .out l k => 1 + l.cost + k.cost
  | .visit cs acc => 4 + ((cs.map (fun c => 1 + nCost c)).sum + (acc.map nCost).sum)
  | .many pend => 3 + (pend.map nCost).sum
  | .done => 2
  | .exit => 0

def Main.cost : Main → Nat
  | .loop next todo _ => 4 + (next.elim 0 Frontier.cost + (todo.map Frontier.cost).sum)
  | .waiting => 3
  | .emitErr _ => 2
  | .closed => 1

def Walk.cost (g : Walk) : Nat :=
  (g.workers.map Worker.cost).sum + g.main.cost + (!g.cancelled).toNat + g.ret.isNone.toNat

theorem Cont.resume_cost (k : Cont) : k.resume.cost = k.cost := by cases k <;> rfl

theorem walk_cost (s : Shard) : s.walkChildren.1.length + resCost s.walkChildren.2 + 2 ≤ sCost s := by
  obtain ⟨d, h1, h2⟩ := walk_sum f1 g1 9 s
  rw [sCost, ← h1]
  have : (s.walkChildren.1.map f1).sum = s.walkChildren.1.length := by
    generalize s.walkChildren.1 = l
    induction l with
    | nil => rfl
    | cons a l ih => simp only [List.map_cons, List.sum_cons, List.length_cons, ih, f1]; omega
  rw [this]
  cases hr : s.walkChildren.2 with
  | error e => simp only [resCost, resSum]; omega
  | ok l =>
    have : l.cost = 5 + l.sum f1 g1 9 := rfl
    simp only [resCost, resSum, this]; omega

theorem step_cost {g g' : Walk} (h : Step bad stop g g') : g'.cost < g.cost := by
  cases h with
  | feed hm hi =>
    rename_i i l todo p
    obtain ⟨rest, h1, h2⟩ := sum_set Worker.cost _ _ _ hi
    simp only [Walk.cost, Walk.move, hm, h1, h2, Worker.cost, Main.cost]
    cases todo with
    | nil => simp only [Frontier.cost, List.head?, List.tail, Option.elim, List.map_nil, List.sum_nil]; omega
    | cons x xs => simp only [Frontier.cost, List.head?, List.tail, Option.elim, List.map_cons, List.sum_cons]; omega
  | feedClosed hm hi =>
    obtain ⟨rest, h1, h2⟩ := sum_set Worker.cost _ _ _ hi
    simp only [Walk.cost, Walk.move, h1, h2, Worker.cost]; omega
  | shard hi =>
    rename_i i s ss cs
    obtain ⟨rest, h1, h2⟩ := sum_set Worker.cost _ _ _ hi
    have := walk_cost s
    simp only [Walk.cost, Walk.move, h1, h2, Worker.cost, Cont.cost, List.map_cons, List.sum_cons]; omega
  | shardsDone hi =>
    obtain ⟨rest, h1, h2⟩ := sum_set Worker.cost _ _ _ hi
    simp only [Walk.cost, Walk.move, h1, h2, Worker.cost, List.map_nil, List.sum_nil]; omega
  | emitSend hi hr =>
    rename_i i v vs r k
    obtain ⟨rest, h1, h2⟩ := sum_set Worker.cost _ _ _ hi
    rw [Walk.receive]
    split
    all_goals
      simp only [Walk.cost, Walk.move, h1, h2, Worker.cost, List.length_cons, hr]
    · simp; omega
    · omega
  | emitDrop hi hc =>
    rename_i i v vs r k
    obtain ⟨rest, h1, h2⟩ := sum_set Worker.cost _ _ _ hi
    simp only [Walk.cost, Walk.move, h1, h2, Worker.cost, List.length_cons]; omega
  | emitErr hi =>
    obtain ⟨rest, h1, h2⟩ := sum_set Worker.cost _ _ _ hi
    simp only [Walk.cost, Walk.fail, h1, h2, Worker.cost]; omega
  | emitOk hi =>
    obtain ⟨rest, h1, h2⟩ := sum_set Worker.cost _ _ _ hi
    simp only [Walk.cost, Walk.move, h1, h2, Worker.cost, resCost]; omega
  | outSend hm hi =>
    rename_i i l k next todo p
    obtain ⟨rest, h1, h2⟩ := sum_set Worker.cost _ _ _ hi
    have hk := k.resume_cost
    cases next with
    | none =>
      simp only [Walk.cost, Walk.move, h1, h2, hm, Main.push, Main.cost, hk, Option.elim]
      rw [Worker.cost]; omega
    | some x =>
      simp only [Walk.cost, Walk.move, h1, h2, hm, Main.push, Main.cost, hk, Option.elim, List.map_append, List.sum_append, List.map_cons,
        List.map_nil, List.sum_cons, List.sum_nil]
      rw [Worker.cost]; omega
  | outCancel hi hc =>
    obtain ⟨rest, h1, h2⟩ := sum_set Worker.cost _ _ _ hi
    simp only [Walk.cost, Walk.move, h1, h2, Worker.cost]; omega
  | visitNew hi hv =>
    obtain ⟨rest, h1, h2⟩ := sum_set Worker.cost _ _ _ hi
    simp only [Walk.cost, Walk.move, h1, h2, Worker.cost, List.map_cons, List.sum_cons, List.map_append, List.sum_append, List.map_nil, List.sum_nil]; omega
  | visitOld hi hv =>
    obtain ⟨rest, h1, h2⟩ := sum_set Worker.cost _ _ _ hi
    simp only [Walk.cost, Walk.move, h1, h2, Worker.cost, List.map_cons, List.sum_cons]; omega
  | visitDone hi =>
    obtain ⟨rest, h1, h2⟩ := sum_set Worker.cost _ _ _ hi
    simp only [Walk.cost, Walk.move, h1, h2, Worker.cost, List.map_nil, List.sum_nil]; omega
  | manyGot hi hc hb hl =>
    rename_i i pend c s
    obtain ⟨rest, h1, h2⟩ := sum_set Worker.cost _ _ _ hi
    have h5 : (pend.map nCost).sum = nCost c + ((pend.erase c).map nCost).sum := by
      rw [((List.perm_cons_erase hc).map nCost).sum_eq, List.map_cons, List.sum_cons]
    have h6 : nCost c = sCost s := nfold_load _ _ _ hl
    have := walk_cost s
    simp only [Walk.cost, Walk.move, h1, h2, Worker.cost, Cont.cost, h5, h6]; omega
  | manyDecode hi hc hb hl =>
    obtain ⟨rest, h1, h2⟩ := sum_set Worker.cost _ _ _ hi
    simp only [Walk.cost, Walk.fail, h1, h2, Worker.cost]; omega
  | manyErr e hi hc =>
    obtain ⟨rest, h1, h2⟩ := sum_set Worker.cost _ _ _ hi
    simp only [Walk.cost, Walk.fail, h1, h2, Worker.cost]; omega
  | manyDone hi =>
    obtain ⟨rest, h1, h2⟩ := sum_set Worker.cost _ _ _ hi
    simp only [Walk.cost, Walk.move, h1, h2, Worker.cost, List.map_nil, List.sum_nil]; omega
  | doneSend hm hi =>
    obtain ⟨rest, h1, h2⟩ := sum_set Worker.cost _ _ _ hi
    split
    · simp only [Walk.cost, Walk.move, h1, h2, Worker.cost, hm, Main.cost]; omega
    · simp only [Walk.cost, Walk.move, h1, h2, Worker.cost, hm, Main.cost]; omega
  | doneCancel hi hc =>
    obtain ⟨rest, h1, h2⟩ := sum_set Worker.cost _ _ _ hi
    simp only [Walk.cost, Walk.move, h1, h2, Worker.cost]; omega
  | mainCancel hm hc => simp only [Walk.cost, hm, Main.cost]; omega
  | wait hm hw =>
    simp only [Walk.cost, hm]
    cases g.gerr <;> simp only [Main.cost] <;> omega
  | errSend hm hr => simp only [Walk.cost, hm, Main.cost, hr]; simp; omega
  | errDrop hm hc => simp only [Walk.cost, hm, Main.cost]; omega
  | recvClosed hm hr => simp only [Walk.cost, hr]; simp

theorem steps_cost {n : Nat} {g g' : Walk} (h : Steps bad stop n g g') : n + g'.cost ≤ g.cost := by
  induction h with
  | refl => omega
  | tail _ hs ih => have := step_cost hs; omega
  | cancel _ hc ih => simp only [Walk.cost, Walk.cancel, hc] at ih ⊢; simp at ih ⊢; omega

theorem steps_workers {n : Nat} {g g' : Walk} (h : Steps bad stop n g g') : g'.workers.length = g.workers.length := by
  induction h with
  | refl => rfl
  | cancel _ _ ih => exact ih
  | tail _ hs ih =>
    rw [← ih]
    cases hs with
    | emitSend => rw [Walk.receive_workers]; exact List.length_set ..
    | mainCancel | wait | errSend | errDrop | recvClosed => rfl
    | _ => exact List.length_set ..

/-! ### No deadlock -/

theorem step_or_finished {g : Walk} (h : Ctl stop g) (hn : g.workers ≠ []) (hno : ∀ g', ¬ Step bad stop g g') : g.Finished := by
  have hw1 : ∀ w ∈ g.workers, w = .idle ∨ w = .exit := by
    intro w hw
    obtain ⟨i, hi⟩ := List.getElem?_of_mem hw
    have hloop : ∀ (P : Prop), (w = .idle ∨ w = .exit → P) → (g.stopped → P) → (∀ a b c, g.main = .loop a b c → P) → P := by
      intro P h1 h2 h3
      by_cases hs : g.stopped
      · exact h2 hs
      · cases hm : g.main with
        | loop a b c => exact h3 a b c hm
        | _ => exact h1 (h.rest hs (by rw [hm]; exact id) w hw)
    cases w with
    | idle => exact .inl rfl
    | exit => exact .inr rfl
    | shards ss cs =>
      cases ss with
      | nil => exact absurd (.shardsDone hi) (hno _)
      | cons s ss => exact absurd (.shard hi) (hno _)
    | emit vs r k =>
      cases vs with
      | nil =>
        cases r with
        | ok l => exact absurd (.emitOk hi) (hno _)
        | error e => exact absurd (.emitErr hi) (hno _)
      | cons v vs =>
        by_cases hr : g.ret = none
        · exact absurd (.emitSend hi hr) (hno _)
        · rcases h.retMain hr with hm | hc
          · exact .inr (h.late (.inl hm) _ hw)
          · exact absurd (.emitDrop hi hc) (hno _)
    | out l k =>
      apply hloop _ id
      · exact fun hs => absurd (.outCancel hi hs) (hno _)
      · exact fun a b c hm => absurd (.outSend hm hi) (hno _)
    | visit cs acc =>
      cases cs with
      | nil => exact absurd (.visitDone hi) (hno _)
      | cons c cs =>
        by_cases hv : c ∈ g.visited
        · exact absurd (.visitOld hi hv) (hno _)
        · exact absurd (.visitNew hi hv) (hno _)
    | many pend =>
      cases pend with
      | nil => exact absurd (.manyDone hi) (hno _)
      | cons c pend =>
        by_cases hb : bad c
        · exact absurd (.manyErr .eof hi (.inl ⟨c, by simp, hb⟩)) (hno _)
        · cases hl : newHamtFromDag c with
          | ok s => exact absurd (.manyGot hi (by simp) hb hl) (hno _)
          | error e => exact absurd (.manyDecode hi (by simp) hb hl) (hno _)
    | done =>
      apply hloop _ id
      · exact fun hs => absurd (.doneCancel hi hs) (hno _)
      · exact fun a b c hm => absurd (.doneSend hm hi) (hno _)
  have hml : ¬ g.main.inLoop := by
    cases hm : g.main with
    | loop next todo p =>
      exfalso
      by_cases hs : g.stopped
      · exact hno _ (.mainCancel hm hs)
      · obtain ⟨h1, h2, h3⟩ := h.count hs _ _ _ hm
        cases next with
        | some l =>
          obtain ⟨w, ws, hws⟩ := List.exists_cons_of_ne_nil hn
          have hwm : w ∈ g.workers := by rw [hws]; simp
          rcases hw1 w hwm with rfl | hw
          · exact hno _ (.feed (i := 0) hm (by rw [hws]; rfl))
          · exact h3 w hwm hw
        | none =>
          have : busySum g.workers = 0 := by
            rw [busySum]
            apply List.sum_eq_zero
            intro x hx
            obtain ⟨w, hw, rfl⟩ := List.mem_map.mp hx
            rcases hw1 w hw with rfl | rfl <;> rfl
          have := h2 rfl
          omega
    | _ => exact id
  have hw2 : ∀ w ∈ g.workers, w = .exit := by
    intro w hw
    rcases hw1 w hw with rfl | h'
    · obtain ⟨i, hi⟩ := List.getElem?_of_mem hw
      exact absurd (.feedClosed (fun a b c hm => hml (by rw [hm]; trivial)) hi) (hno _)
    · exact h'
  cases hm : g.main with
  | loop a b c => exact absurd (by rw [hm]; trivial) hml
  | waiting => exact absurd (.wait hm hw2) (hno _)
  | emitErr e =>
    by_cases hr : g.ret = none
    · exact absurd (.errSend hm hr) (hno _)
    · rcases h.retMain hr with hm' | hc
      · rw [hm] at hm'; cases hm'
      · exact absurd (.errDrop hm hc) (hno _)
  | closed =>
    refine ⟨hm, hw2, fun hr => ?_⟩
    exact hno _ (.recvClosed hm hr)

theorem Steps.trans {m n : Nat} {g g' g'' : Walk} (h : Steps bad stop m g g') (h' : Steps bad stop n g' g'') : Steps bad stop (m + n) g g'' := by
  induction h' with
  | refl => exact h
  | tail _ hs ih => exact .tail (ih h) hs
  | cancel _ hc ih => exact .cancel (ih h) hc

theorem Steps.one {g g' : Walk} (h : Step bad stop g g') : Steps bad stop 1 g g' := .tail (.refl _) h

/-- Without a consumer that stops, only the caller cancels. -/
theorem step_cancelled {g g' : Walk} (h : Step bad noStop g g') : g'.cancelled = g.cancelled := by
  cases h with
  | emitSend => rw [Walk.receive]; simp [noStop, Walk.move]
  | _ => rfl

/-- Every reached state can be continued to the end. -/
theorem finishes {m n : Nat} {root : Shard} {g : Walk} (hn : 0 < n) (h : Steps bad stop m (Walk.start n root) g) :
    ∃ k g', Steps bad stop k g g' ∧ g'.Finished ∧ (stop = noStop → g'.cancelled = g.cancelled) := by
  induction hc : g.cost using Nat.strong_induction_on generalizing m g with
  | _ c ih =>
    by_cases hs : ∃ g', Step bad stop g g'
    · obtain ⟨g', hs⟩ := hs
      obtain ⟨k, g'', h1, h2, h3⟩ := ih g'.cost (by rw [← hc]; exact step_cost hs) (.tail h hs) rfl
      refine ⟨1 + k, g'', Steps.trans (.one hs) h1, h2, fun he => ?_⟩
      rw [h3 he]
      subst he
      exact step_cancelled hs
    · refine ⟨0, g, .refl _, step_or_finished (ctl_steps (ctl_start n root) h) ?_ (fun g' hs' => hs ⟨g', hs'⟩), fun _ => rfl⟩
      have := steps_workers h
      intro h0
      rw [h0] at this
      simp [Walk.start] at this
      omega

end Unixfs.Hamt
