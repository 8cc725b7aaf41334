import Verif.Hamt.WalkSum

/-! # The parallel walk: control invariant, termination, absence of deadlock -/

namespace Unixfs.Hamt

variable {bad : Node → Prop} {stop : List Link → Bool}

/-- The worker owes the dispatcher a `done`. Used in specifications and proofs only. -/
def Worker.busy : Worker → Int
  | .idle => 0
  | .exit => 0
  | _ => 1

/-- Used in specifications and proofs only. -/
def busySum (ws : List Worker) : Int := (ws.map Worker.busy).sum

theorem busySum_set {ws : List Worker} {i : Nat} {a : Worker} (h : ws[i]? = some a) (b : Worker) : busySum (ws.set i b) = busySum ws - a.busy + b.busy := by
  obtain ⟨rest, h1, h2⟩ := sum_set Worker.busy ws i a h
  rw [busySum, busySum, h1, h2]; omega

theorem busy_nonneg (w : Worker) : 0 ≤ w.busy := by cases w <;> simp [Worker.busy]

theorem busySum_nonneg (ws : List Worker) : 0 ≤ busySum ws := by
  induction ws with
  | nil => simp [busySum]
  | cons w ws ih => have := busy_nonneg w; simp only [busySum, List.map_cons, List.sum_cons] at ih ⊢; omega

theorem busySum_zero {ws : List Worker} (h : busySum ws = 0) : ∀ w ∈ ws, w = .idle ∨ w = .exit := by
  induction ws with
  | nil => simp
  | cons w ws ih =>
    have h1 := busy_nonneg w
    have h2 := busySum_nonneg ws
    simp only [busySum, List.map_cons, List.sum_cons] at h h2
    intro x hx
    rcases List.mem_cons.mp hx with rfl | hx
    · cases x <;> simp [Worker.busy] at h h1 ⊢ <;> omega
    · exact ih (by rw [busySum]; omega) x hx

/-- Used in specifications and proofs only. -/
def Main.inLoop : Main → Prop
  | .loop .. => True
  | _ => False

/-- Used in specifications and proofs only. -/
structure Ctl (stop : List Link → Bool) (g : Walk) : Prop where
  queue : ∀ todo p, g.main = .loop none todo p → todo = []
  count : ¬ g.stopped → ∀ next todo p, g.main = .loop next todo p → p = busySum g.workers ∧ (next = none → 0 < p) ∧ ∀ w ∈ g.workers, w ≠ .exit
  rest : ¬ g.stopped → ¬ g.main.inLoop → ∀ w ∈ g.workers, w = .idle ∨ w = .exit
  late : (g.main = .closed ∨ ∃ e, g.main = .emitErr e) → ∀ w ∈ g.workers, w = .exit
  emitting : ∀ e, g.main = .emitErr e → g.gerr = some e
  retMain : g.ret ≠ none → g.main = .closed ∨ g.cancelled = true
  retErr : ∀ e, g.ret = some (.err e) → g.gerr = some e
  reported : g.main = .closed → g.cancelled = false → ∀ e, g.gerr = some e → g.ret = some (.err e)
  retEnd : g.ret = some .ended → g.main = .closed
  retStop : g.ret = some .stopped → g.cancelled = true ∧ stop g.got = true


theorem mem_set_of {α : Type} {l : List α} {i : Nat} {b w : α} (h : w ∈ l.set i b) : w = b ∨ w ∈ l := (List.mem_or_eq_of_mem_set h).symm

/-- A step of a worker. -/
theorem ctl_worker {g g' : Walk} {i : Nat} {a b : Worker} (h : Ctl stop g) (hmain : g'.main = g.main) (hcan : g'.cancelled = g.cancelled) (hret : g'.ret = g.ret)
    (hgot : g'.got = g.got) (hgerr : g'.gerr = g.gerr ∨ g.gerr = none) (hw : g'.workers = g.workers.set i b) (hi : g.workers[i]? = some a) (ha : a ≠ .exit)
    (hb : g'.stopped ∨ (b.busy = a.busy ∧ b ≠ .exit) ∨ (¬ g.main.inLoop ∧ b = .exit)) : Ctl stop g' := by
  have hm := List.mem_of_getElem? hi
  have hnl : ¬ (g.main = .closed ∨ ∃ e, g.main = .emitErr e) := fun hl => ha (h.late hl _ hm)
  have hns : ¬ g'.stopped → ¬ g.stopped := by
    rintro hs (hc | hg)
    · exact hs (.inl (by rw [hcan]; exact hc))
    · rcases hgerr with he | he
      · exact hs (.inr (by rw [he]; exact hg))
      · rw [he] at hg; cases hg
  constructor
  · rw [hmain]; exact h.queue
  · intro hs next todo p hl
    rw [hmain] at hl
    obtain ⟨h1, h2, h3⟩ := h.count (hns hs) next todo p hl
    rcases hb with hb | ⟨hb, hb'⟩ | ⟨hb, _⟩
    · exact absurd hb hs
    · refine ⟨by rw [hw, busySum_set hi, hb]; omega, h2, fun w hw' => ?_⟩
      rw [hw] at hw'
      rcases mem_set_of hw' with rfl | hw'
      · exact hb'
      · exact h3 w hw'
    · exact absurd (by rw [hl]; trivial) hb
  · intro hs hl w hw'
    rw [hmain] at hl
    have h1 := h.rest (hns hs) hl
    rw [hw] at hw'
    rcases mem_set_of hw' with rfl | hw'
    · rcases hb with hb | ⟨hb, hb'⟩ | ⟨_, hb⟩
      · exact absurd hb hs
      · rcases h1 a hm with rfl | rfl
        · cases w <;> simp [Worker.busy] at hb hb' ⊢
        · exact absurd rfl ha
      · exact .inr hb
    · exact h1 w hw'
  · rw [hmain]; exact fun hl => absurd hl hnl
  · rw [hmain]; exact fun e hl => absurd (.inr ⟨e, hl⟩) hnl
  · rw [hret, hmain, hcan]; exact h.retMain
  · rw [hret]
    intro e he
    have := h.retErr e he
    rcases hgerr with h' | h'
    · rw [h', this]
    · rw [h'] at this; cases this
  · rw [hmain]; exact fun hl => absurd (.inl hl) hnl
  · rw [hret, hmain]; exact h.retEnd
  · rw [hret, hcan, hgot]; exact h.retStop

theorem Walk.receive_workers (g : Walk) (v : Link) : (g.receive stop v).workers = g.workers := by rw [Walk.receive]; split <;> rfl
theorem Walk.receive_main (g : Walk) (v : Link) : (g.receive stop v).main = g.main := by rw [Walk.receive]; split <;> rfl
theorem Walk.receive_gerr (g : Walk) (v : Link) : (g.receive stop v).gerr = g.gerr := by rw [Walk.receive]; split <;> rfl
theorem Walk.receive_visited (g : Walk) (v : Link) : (g.receive stop v).visited = g.visited := by rw [Walk.receive]; split <;> rfl

theorem ctl_receive {g : Walk} (h : Ctl stop g) (hr : g.ret = none) (v : Link) : Ctl stop (g.receive stop v) := by
  rw [Walk.receive]
  have hst : ∀ {g' : Walk}, g'.gerr = g.gerr → (g.cancelled = true → g'.cancelled = true) → ¬ g'.stopped → ¬ g.stopped := by
    rintro g' h1 h2 hs (hc | hc)
    · exact hs (.inl (h2 hc))
    · exact hs (.inr (by rw [h1]; exact hc))
  split
  · rename_i hst'
    constructor
    · exact h.queue
    · exact fun hs => absurd (.inl rfl) hs
    · exact fun hs => absurd (.inl rfl) hs
    · exact h.late
    · exact h.emitting
    · exact fun _ => .inr rfl
    · intro e he; cases he
    · intro _ hc; cases hc
    · intro he; cases he
    · exact fun _ => ⟨rfl, hst'⟩
  · constructor
    · exact h.queue
    · exact fun hs => h.count hs
    · exact fun hs => h.rest hs
    · exact h.late
    · exact h.emitting
    · exact h.retMain
    · exact h.retErr
    · exact h.reported
    · exact h.retEnd
    · intro he; rw [show _ = g.ret from rfl, hr] at he; cases he

theorem ctl_cancel {g : Walk} (h : Ctl stop g) : Ctl stop g.cancel := by
  constructor
  · exact h.queue
  · exact fun hs => absurd (.inl rfl) hs
  · exact fun hs => absurd (.inl rfl) hs
  · exact h.late
  · exact h.emitting
  · exact fun _ => .inr rfl
  · exact h.retErr
  · intro _ hc; cases hc
  · exact h.retEnd
  · exact fun hr => ⟨rfl, (h.retStop hr).2⟩

theorem ctl_step {g g' : Walk} (h : Ctl stop g) (hs : Step bad stop g g') : Ctl stop g' := by
  cases hs with
  | feed hm hi =>
    rename_i i l todo p
    have hst : ∀ {m : Main}, ¬ ({ g.move i (.shards l.shards l.cids) with main := m } : Walk).stopped → ¬ g.stopped := fun hs hs' => hs hs'
    constructor
    · intro todo' p' he
      simp only [Main.loop.injEq] at he
      cases todo with
      | nil => exact he.2.1.symm
      | cons => simp at he
    · intro hs next todo' p' he
      simp only [Main.loop.injEq] at he
      obtain ⟨h1, h2, h3⟩ := h.count (hst hs) _ _ _ hm
      have hb := busySum_set hi (.shards l.shards l.cids)
      have := busySum_nonneg g.workers
      simp only [Worker.busy] at hb
      refine ⟨?_, fun _ => by omega, fun w hw => ?_⟩
      · rw [show Walk.workers _ = g.workers.set i (.shards l.shards l.cids) from rfl, hb]; omega
      · rcases mem_set_of hw with rfl | hw
        · simp
        · exact h3 w hw
    · exact fun _ hl => absurd trivial hl
    · rintro (hl | ⟨e, hl⟩) <;> cases hl
    · intro e hl; cases hl
    · intro hr
      rcases h.retMain hr with hr | hr
      · rw [hm] at hr; cases hr
      · exact .inr hr
    · exact h.retErr
    · intro hl; cases hl
    · intro hr; have := h.retEnd hr; rw [hm] at this; cases this
    · exact h.retStop
  | feedClosed hm hi =>
    refine ctl_worker h rfl rfl rfl rfl (.inl rfl) rfl hi (by simp) (.inr (.inr ⟨?_, rfl⟩))
    intro hl
    cases hmm : g.main with
    | loop a b c => exact hm a b c hmm
    | _ => rw [hmm] at hl; exact hl
  | shard hi => exact ctl_worker h rfl rfl rfl rfl (.inl rfl) rfl hi (by simp) (.inr (.inl ⟨rfl, by simp⟩))
  | shardsDone hi => exact ctl_worker h rfl rfl rfl rfl (.inl rfl) rfl hi (by simp) (.inr (.inl ⟨rfl, by simp⟩))
  | emitSend hi hr =>
    rename_i i v vs r k
    exact ctl_receive (g := g.move i (.emit vs r k)) (ctl_worker h rfl rfl rfl rfl (.inl rfl) rfl hi (by simp) (.inr (.inl ⟨rfl, by simp⟩))) hr _
  | emitDrop hi hc => exact ctl_worker h rfl rfl rfl rfl (.inl rfl) rfl hi (by simp) (.inr (.inl ⟨rfl, by simp⟩))
  | emitErr hi =>
    refine ctl_worker h rfl rfl rfl rfl ?_ rfl hi (by simp) (.inl (fail_stopped _ _ _))
    simp only [Walk.fail]; cases g.gerr <;> simp
  | emitOk hi => exact ctl_worker h rfl rfl rfl rfl (.inl rfl) rfl hi (by simp) (.inr (.inl ⟨rfl, by simp⟩))
  | outSend hm hi =>
    rename_i i l k next todo p
    have hb := busySum_set hi k.resume
    have hk : k.resume.busy = 1 ∧ k.resume ≠ .exit := by cases k <;> simp [Cont.resume, Worker.busy]
    rw [hk.1] at hb
    simp only [Worker.busy] at hb
    have hml : ∃ l' todo', Main.push next todo p l = .loop (some l') todo' p := by
      cases next with
      | none => exact ⟨_, _, rfl⟩
      | some x => exact ⟨_, _, rfl⟩
    obtain ⟨l', todo', hml⟩ := hml
    rw [hml]
    constructor
    · intro _ _ he; simp at he
    · intro hs next' todo'' p' he
      simp only [Main.loop.injEq] at he
      obtain ⟨h1, h2, h3⟩ := h.count hs _ _ _ hm
      refine ⟨?_, fun hn => by rw [hn] at he; simp at he, fun w hw => ?_⟩
      · rw [show Walk.workers _ = g.workers.set i k.resume from rfl, hb]; omega
      · rcases mem_set_of hw with rfl | hw
        · exact hk.2
        · exact h3 w hw
    · exact fun _ hl => absurd trivial hl
    · rintro (hl | ⟨e, hl⟩) <;> cases hl
    · intro e hl; cases hl
    · intro hr
      rcases h.retMain hr with hr | hr
      · rw [hm] at hr; cases hr
      · exact .inr hr
    · exact h.retErr
    · intro hl; cases hl
    · intro hr; have := h.retEnd hr; rw [hm] at this; cases this
    · exact h.retStop
  | outCancel hi hc => exact ctl_worker h rfl rfl rfl rfl (.inl rfl) rfl hi (by simp) (.inl hc)
  | visitNew hi hv => exact ctl_worker h rfl rfl rfl rfl (.inl rfl) rfl hi (by simp) (.inr (.inl ⟨rfl, by simp⟩))
  | visitOld hi hv => exact ctl_worker h rfl rfl rfl rfl (.inl rfl) rfl hi (by simp) (.inr (.inl ⟨rfl, by simp⟩))
  | visitDone hi => exact ctl_worker h rfl rfl rfl rfl (.inl rfl) rfl hi (by simp) (.inr (.inl ⟨rfl, by simp⟩))
  | manyGot hi hc hb hl => exact ctl_worker h rfl rfl rfl rfl (.inl rfl) rfl hi (by simp) (.inr (.inl ⟨rfl, by simp⟩))
  | manyDecode hi hc hb hl =>
    refine ctl_worker h rfl rfl rfl rfl ?_ rfl hi (by simp) (.inl (fail_stopped _ _ _))
    simp only [Walk.fail]; cases g.gerr <;> simp
  | manyErr e hi hc =>
    refine ctl_worker h rfl rfl rfl rfl ?_ rfl hi (by simp) (.inl (fail_stopped _ _ _))
    simp only [Walk.fail]; cases g.gerr <;> simp
  | manyDone hi => exact ctl_worker h rfl rfl rfl rfl (.inl rfl) rfl hi (by simp) (.inr (.inl ⟨rfl, by simp⟩))
  | doneSend hm hi =>
    rename_i i next todo p
    have hb := busySum_set hi .idle
    simp only [Worker.busy] at hb
    have hr' : g.ret ≠ none → g.cancelled = true := by
      intro hr
      rcases h.retMain hr with hr | hr
      · rw [hm] at hr; cases hr
      · exact hr
    have hre : g.ret ≠ some .ended := by intro hr; have := h.retEnd hr; rw [hm] at this; cases this
    by_cases hc : p - 1 = 0 ∧ next.isNone
    · rw [if_pos hc]
      constructor
      · intro _ _ he; cases he
      · intro _ _ _ _ he; cases he
      · intro hs _
        obtain ⟨h1, h2, h3⟩ := h.count hs _ _ _ hm
        exact busySum_zero (by rw [show Walk.workers _ = g.workers.set i .idle from rfl, hb]; omega)
      · rintro (hl | ⟨e, hl⟩) <;> cases hl
      · intro e hl; cases hl
      · exact fun hr => .inr (hr' hr)
      · exact h.retErr
      · intro hl; cases hl
      · intro hr; exact absurd hr hre
      · exact h.retStop
    · rw [if_neg hc]
      constructor
      · intro todo' p' he
        simp only [Main.loop.injEq] at he
        obtain ⟨he1, he2, he3⟩ := he
        subst he1
        rw [← he2]
        exact h.queue _ _ hm
      · intro hs next' todo' p' he
        simp only [Main.loop.injEq] at he
        obtain ⟨he1, he2, he3⟩ := he
        obtain ⟨h1, h2, h3⟩ := h.count hs _ _ _ hm
        have h4 := busySum_nonneg (g.workers.set i .idle)
        refine ⟨?_, fun hn => ?_, fun w hw => ?_⟩
        · rw [show Walk.workers _ = g.workers.set i .idle from rfl, hb]; omega
        · rw [hn] at he1
          subst he1
          have : ¬ p - 1 = 0 := fun h => hc ⟨h, rfl⟩
          omega
        · rcases mem_set_of hw with rfl | hw
          · simp
          · exact h3 w hw
      · exact fun _ hl => absurd trivial hl
      · rintro (hl | ⟨e, hl⟩) <;> cases hl
      · intro e hl; cases hl
      · exact fun hr => .inr (hr' hr)
      · exact h.retErr
      · intro hl; cases hl
      · intro hr; exact absurd hr hre
      · exact h.retStop
  | doneCancel hi hc => exact ctl_worker h rfl rfl rfl rfl (.inl rfl) rfl hi (by simp) (.inl hc)
  | mainCancel hm hc =>
    constructor
    · intro _ _ he; cases he
    · intro _ _ _ _ he; cases he
    · exact fun hs => absurd hc hs
    · rintro (hl | ⟨e, hl⟩) <;> cases hl
    · intro e hl; cases hl
    · intro hr
      rcases h.retMain hr with hr | hr
      · rw [hm] at hr; cases hr
      · exact .inr hr
    · exact h.retErr
    · intro hl; cases hl
    · intro hr; have := h.retEnd hr; rw [hm] at this; cases this
    · exact h.retStop
  | wait hm hw =>
    have hr' : g.ret ≠ none → g.cancelled = true := by
      intro hr
      rcases h.retMain hr with hr | hr
      · rw [hm] at hr; cases hr
      · exact hr
    have hre : g.ret ≠ some .ended := by intro hr; have := h.retEnd hr; rw [hm] at this; cases this
    cases hg : g.gerr with
    | none =>
      constructor
      · intro _ _ he; cases he
      · intro _ _ _ _ he; cases he
      · exact fun _ _ w hw' => .inr (hw w hw')
      · exact fun _ => hw
      · intro e hl; cases hl
      · exact fun hr => .inr (hr' hr)
      · intro e he; have := h.retErr e he; rw [hg] at this; cases this
      · intro _ _ e he; cases he
      · intro hr; exact absurd hr hre
      · exact h.retStop
    | some e =>
      constructor
      · intro _ _ he; cases he
      · intro _ _ _ _ he; cases he
      · exact fun _ _ w hw' => .inr (hw w hw')
      · exact fun _ => hw
      · intro e' hl; simp only [Main.emitErr.injEq] at hl; rw [← hl]
      · exact fun hr => .inr (hr' hr)
      · intro e' he; rw [← hg]; exact h.retErr e' he
      · intro hl; cases hl
      · intro hr; exact absurd hr hre
      · exact h.retStop
  | errSend hm hr =>
    rename_i e
    constructor
    · intro _ _ he; cases he
    · intro _ _ _ _ he; cases he
    · exact fun _ _ w hw' => .inr (h.late (.inr ⟨e, hm⟩) w hw')
    · exact fun _ => h.late (.inr ⟨e, hm⟩)
    · intro e' hl; cases hl
    · exact fun _ => .inl rfl
    · intro e' he; cases he; exact h.emitting e hm
    · intro _ _ e' he; have := h.emitting e hm; rw [show Walk.gerr _ = g.gerr from rfl, this] at he; cases he; rfl
    · intro he; cases he
    · intro he; cases he
  | errDrop hm hc =>
    rename_i e
    constructor
    · intro _ _ he; cases he
    · intro _ _ _ _ he; cases he
    · exact fun _ _ w hw' => .inr (h.late (.inr ⟨e, hm⟩) w hw')
    · exact fun _ => h.late (.inr ⟨e, hm⟩)
    · intro e' hl; cases hl
    · exact fun _ => .inl rfl
    · exact h.retErr
    · intro _ hc'; rw [show Walk.cancelled _ = g.cancelled from rfl, hc] at hc'; cases hc'
    · exact fun _ => rfl
    · exact h.retStop
  | recvClosed hm hr =>
    constructor
    · exact h.queue
    · exact fun hs => h.count hs
    · exact fun hs => h.rest hs
    · exact h.late
    · exact h.emitting
    · exact fun _ => .inl hm
    · intro e he; cases he
    · intro _ hc e he; have := h.reported hm hc e he; rw [hr] at this; cases this
    · exact fun _ => hm
    · intro he; cases he

theorem ctl_start (n : Nat) (s : Shard) : Ctl stop (Walk.start n s) := by
  constructor
  · intro todo p he; simp [Walk.start] at he
  · intro _ next todo p he
    simp only [Walk.start, Main.loop.injEq] at he
    refine ⟨?_, fun hn => by rw [hn] at he; simp at he, fun w hw => ?_⟩
    · rw [← he.2.2, Walk.start, busySum]; simp [Worker.busy]
    · simp only [Walk.start] at hw; rw [List.eq_of_mem_replicate hw]; simp
  · exact fun _ hl => absurd trivial hl
  · rintro (hl | ⟨e, hl⟩) <;> cases hl
  · intro e hl; cases hl
  · exact fun h => absurd rfl h
  · intro e he; cases he
  · intro hl; cases hl
  · intro he; cases he
  · intro he; cases he

theorem ctl_steps {n : Nat} {g g' : Walk} (h : Ctl stop g) (hs : Steps bad stop n g g') : Ctl stop g' := by
  induction hs with
  | refl => exact h
  | tail _ hs ih => exact ctl_step (ih h) hs
  | cancel _ _ ih => exact ctl_cancel (ih h)

end Unixfs.Hamt
