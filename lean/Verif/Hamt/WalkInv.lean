import Verif.Hamt.WalkTerm
import Verif.Spec.Walk

/-! # The parallel walk: every part is visited, and every error has a cause

The definitions in this file belong to proofs; they model no code.
-/

namespace Unixfs.Hamt

variable {bad : Node → Prop} {stop : List Link → Bool}

/-! ### `walkChildren` -/

def partIn (ss : List Shard) (cs : List Node) : Part → Prop
  | .shard s => s ∈ ss
  | .stored n => n ∈ cs

theorem makeShardValue_name {size : Nat} {l : Link} {sv : Shard} (hm : makeShardValue size l = .ok sv) :
    Link.rename (sv.val.getD (.mk [] 0 default)) sv.key = .mk (l.name.drop (maxpadlen size)) l.tsize l.target := by
  obtain ⟨n, sz, t⟩ := l
  rw [makeShardValue, makeShard] at hm
  split at hm
  · cases hm
  · split at hm
    · cases hm
    · split at hm
      · cases hm
      · simp only [Except.ok.injEq] at hm
        subst hm
        rfl

/-- What one slot contributes. -/
def slotHas (size : Nat) (x : Slot) (p : Part) : Prop :=
  (∃ c, x = .child c ∧ c.val = none ∧ p = .shard c) ∨ ∃ l, x = .link l ∧ childLinkType size l = .ok .shardLink ∧ p = .stored l.target

def slotEntry (size : Nat) (x : Slot) (v : Link) : Prop :=
  (∃ c u, x = .child c ∧ c.val = some u ∧ v = .mk c.key u.tsize u.target) ∨
    ∃ l, x = .link l ∧ childLinkType size l = .ok .shardValueLink ∧ v = .mk (l.name.drop (maxpadlen size)) l.tsize l.target

def slotFaulty (size : Nat) (x : Slot) : Prop :=
  ∃ l e, x = .link l ∧ (childLinkType size l = .error e ∨ (childLinkType size l = .ok .shardValueLink ∧ makeShardValue size l = .error e))

theorem has_slot {s : Shard} {p : Part} : Part.Has (.shard s) p ↔ ∃ x ∈ s.slots, slotHas s.size x p := by
  constructor
  · intro h
    cases h with
    | child h hv => exact ⟨_, h, .inl ⟨_, rfl, hv, rfl⟩⟩
    | link h ht => exact ⟨_, h, .inr ⟨_, rfl, ht, rfl⟩⟩
  · rintro ⟨x, hx, ⟨c, rfl, hv, rfl⟩ | ⟨l, rfl, ht, rfl⟩⟩
    · exact .child hx hv
    · exact .link hx ht

theorem entry_slot {s : Shard} {v : Link} : Entry s v ↔ ∃ x ∈ s.slots, slotEntry s.size x v := by
  constructor
  · intro h
    cases h with
    | child h hv => exact ⟨_, h, .inl ⟨_, _, rfl, hv, rfl⟩⟩
    | link h ht => exact ⟨_, h, .inr ⟨_, rfl, ht, rfl⟩⟩
  · rintro ⟨x, hx, ⟨c, u, rfl, hv, rfl⟩ | ⟨l, rfl, ht, rfl⟩⟩
    · exact .child hx hv
    · exact .link hx ht

theorem faulty_slot {s : Shard} : Faulty bad (.shard s) ↔ ∃ x ∈ s.slots, slotFaulty s.size x := by
  constructor
  · rintro ⟨l, e, h, h'⟩; exact ⟨_, h, l, e, rfl, h'⟩
  · rintro ⟨x, hx, l, e, rfl, h'⟩; exact ⟨l, e, hx, h'⟩

theorem walkSlots_spec (size : Nat) (ss : List Slot) (r : Frontier) :
    (∀ v ∈ (walkSlots size ss r).1, ∃ x ∈ ss, slotEntry size x v) ∧
    match (walkSlots size ss r).2 with
    | .error _ => ∃ x ∈ ss, slotFaulty size x
    | .ok l => (∀ x ∈ ss, ¬ slotFaulty size x) ∧ (∀ x ∈ ss, ∀ v, slotEntry size x v → v ∈ (walkSlots size ss r).1) ∧
        ∀ p, partIn l.shards l.cids p ↔ partIn r.shards r.cids p ∨ ∃ x ∈ ss, slotHas size x p := by
  induction ss generalizing r with
  | nil => simp [walkSlots]
  | cons x ss ih =>
    cases x with
    | link l =>
      rw [walkSlots]
      cases hc : childLinkType size l with
      | error e => exact ⟨by simp, _, by simp, l, e, rfl, .inl hc⟩
      | ok lt =>
        cases lt with
        | shardValueLink =>
          dsimp only
          cases hm : makeShardValue size l with
          | error e => exact ⟨by simp, _, by simp, l, e, rfl, .inr ⟨hc, hm⟩⟩
          | ok sv =>
            dsimp only
            rw [makeShardValue_name hm]
            obtain ⟨h1, h2⟩ := ih r
            refine ⟨fun v hv => ?_, ?_⟩
            · rcases List.mem_cons.mp hv with rfl | hv
              · exact ⟨_, by simp, .inr ⟨l, rfl, hc, rfl⟩⟩
              · obtain ⟨x, hx, h⟩ := h1 v hv
                exact ⟨x, by simp [hx], h⟩
            · revert h2
              cases (walkSlots size ss r).2 with
              | error e => rintro ⟨x, hx, h⟩; exact ⟨x, by simp [hx], h⟩
              | ok l' =>
                rintro ⟨h3, h4, h5⟩
                refine ⟨fun x hx => ?_, fun x hx v hv => ?_, fun p => ?_⟩
                · rcases List.mem_cons.mp hx with rfl | hx
                  · rintro ⟨l2, e, he, h | ⟨_, h⟩⟩
                    · cases he; rw [hc] at h; cases h
                    · cases he; rw [hm] at h; cases h
                  · exact h3 x hx
                · rcases List.mem_cons.mp hx with rfl | hx
                  · rcases hv with ⟨c, u, he, _⟩ | ⟨l2, he, _, rfl⟩
                    · cases he
                    · cases he; simp
                  · exact List.mem_cons_of_mem _ (h4 x hx v hv)
                · rw [h5]
                  constructor
                  · rintro (h | ⟨x, hx, h⟩)
                    · exact .inl h
                    · exact .inr ⟨x, by simp [hx], h⟩
                  · rintro (h | ⟨x, hx, h⟩)
                    · exact .inl h
                    · rcases List.mem_cons.mp hx with rfl | hx
                      · rcases h with ⟨c, he, _⟩ | ⟨l2, he, ht, _⟩
                        · cases he
                        · cases he; rw [hc] at ht; cases ht
                      · exact .inr ⟨x, hx, h⟩
        | shardLink =>
          dsimp only
          obtain ⟨h1, h2⟩ := ih { r with cids := r.cids ++ [l.target] }
          refine ⟨fun v hv => ?_, ?_⟩
          · obtain ⟨x, hx, h⟩ := h1 v hv
            exact ⟨x, by simp [hx], h⟩
          · revert h2
            cases (walkSlots size ss { r with cids := r.cids ++ [l.target] }).2 with
            | error e => rintro ⟨x, hx, h⟩; exact ⟨x, by simp [hx], h⟩
            | ok l' =>
              rintro ⟨h3, h4, h5⟩
              refine ⟨fun x hx => ?_, fun x hx v hv => ?_, fun p => ?_⟩
              · rcases List.mem_cons.mp hx with rfl | hx
                · rintro ⟨l2, e, he, h | ⟨h, _⟩⟩
                  · cases he; rw [hc] at h; cases h
                  · cases he; rw [hc] at h; cases h
                · exact h3 x hx
              · rcases List.mem_cons.mp hx with rfl | hx
                · rcases hv with ⟨c, u, he, _⟩ | ⟨l2, he, h, rfl⟩
                  · cases he
                  · cases he; rw [hc] at h; cases h
                · exact h4 x hx v hv
              · rw [h5]
                constructor
                · rintro (h | ⟨x, hx, h⟩)
                  · cases p with
                    | shard s => exact .inl h
                    | stored n =>
                      rcases List.mem_append.mp h with h | h
                      · exact .inl h
                      · rw [List.mem_singleton.mp h]
                        exact .inr ⟨_, by simp, .inr ⟨l, rfl, hc, rfl⟩⟩
                  · exact .inr ⟨x, by simp [hx], h⟩
                · rintro (h | ⟨x, hx, h⟩)
                  · cases p with
                    | shard s => exact .inl h
                    | stored n => exact .inl (List.mem_append_left _ h)
                  · rcases List.mem_cons.mp hx with rfl | hx
                    · rcases h with ⟨c, he, _⟩ | ⟨l2, he, ht, rfl⟩
                      · cases he
                      · cases he; exact .inl (List.mem_append_right _ (by simp))
                    · exact .inr ⟨x, hx, h⟩
    | child c =>
      rw [walkSlots]
      cases hv : c.val with
      | some u =>
        dsimp only
        obtain ⟨h1, h2⟩ := ih r
        refine ⟨fun v hv' => ?_, ?_⟩
        · rcases List.mem_cons.mp hv' with rfl | hv'
          · exact ⟨_, by simp, .inl ⟨c, u, rfl, hv, rfl⟩⟩
          · obtain ⟨x, hx, h⟩ := h1 v hv'
            exact ⟨x, by simp [hx], h⟩
        · revert h2
          cases (walkSlots size ss r).2 with
          | error e => rintro ⟨x, hx, h⟩; exact ⟨x, by simp [hx], h⟩
          | ok l' =>
            rintro ⟨h3, h4, h5⟩
            refine ⟨fun x hx => ?_, fun x hx v hv' => ?_, fun p => ?_⟩
            · rcases List.mem_cons.mp hx with rfl | hx
              · rintro ⟨l2, e, he, _⟩; cases he
              · exact h3 x hx
            · rcases List.mem_cons.mp hx with rfl | hx
              · rcases hv' with ⟨c', u', he, hu, rfl⟩ | ⟨l2, he, _⟩
                · cases he; rw [hv] at hu; cases hu; simp
                · cases he
              · exact List.mem_cons_of_mem _ (h4 x hx v hv')
            · rw [h5]
              constructor
              · rintro (h | ⟨x, hx, h⟩)
                · exact .inl h
                · exact .inr ⟨x, by simp [hx], h⟩
              · rintro (h | ⟨x, hx, h⟩)
                · exact .inl h
                · rcases List.mem_cons.mp hx with rfl | hx
                  · rcases h with ⟨c', he, hn, _⟩ | ⟨l2, he, _⟩
                    · cases he; rw [hv] at hn; cases hn
                    · cases he
                  · exact .inr ⟨x, hx, h⟩
      | none =>
        dsimp only
        obtain ⟨h1, h2⟩ := ih { r with shards := r.shards ++ [c] }
        refine ⟨fun v hv => ?_, ?_⟩
        · obtain ⟨x, hx, h⟩ := h1 v hv
          exact ⟨x, by simp [hx], h⟩
        · revert h2
          cases (walkSlots size ss { r with shards := r.shards ++ [c] }).2 with
          | error e => rintro ⟨x, hx, h⟩; exact ⟨x, by simp [hx], h⟩
          | ok l' =>
            rintro ⟨h3, h4, h5⟩
            refine ⟨fun x hx => ?_, fun x hx v hv' => ?_, fun p => ?_⟩
            · rcases List.mem_cons.mp hx with rfl | hx
              · rintro ⟨l2, e, he, _⟩; cases he
              · exact h3 x hx
            · rcases List.mem_cons.mp hx with rfl | hx
              · rcases hv' with ⟨c', u, he, hu, _⟩ | ⟨l2, he, h, rfl⟩
                · cases he; rw [hv] at hu; cases hu
                · cases he
              · exact h4 x hx v hv'
            · rw [h5]
              constructor
              · rintro (h | ⟨x, hx, h⟩)
                · cases p with
                  | stored n => exact .inl h
                  | shard s =>
                    rcases List.mem_append.mp h with h | h
                    · exact .inl h
                    · rw [List.mem_singleton.mp h]
                      exact .inr ⟨_, by simp, .inl ⟨c, rfl, hv, rfl⟩⟩
                · exact .inr ⟨x, by simp [hx], h⟩
              · rintro (h | ⟨x, hx, h⟩)
                · cases p with
                  | stored n => exact .inl h
                  | shard s => exact .inl (List.mem_append_left _ h)
                · rcases List.mem_cons.mp hx with rfl | hx
                  · rcases h with ⟨c', he, _, rfl⟩ | ⟨l2, he, _⟩
                    · cases he; exact .inl (List.mem_append_right _ (by simp))
                    · cases he
                  · exact .inr ⟨x, hx, h⟩

theorem walk_entry {s : Shard} {v : Link} (h : v ∈ s.walkChildren.1) : Entry s v := by
  obtain ⟨h1, _⟩ := walkSlots_spec s.size s.slots ⟨[], []⟩
  exact entry_slot.mpr (h1 v h)

theorem walk_err {s : Shard} {e : Err} (h : s.walkChildren.2 = .error e) : Faulty bad (.shard s) := by
  obtain ⟨_, h2⟩ := walkSlots_spec s.size s.slots ⟨[], []⟩
  rw [Shard.walkChildren] at h
  rw [h] at h2
  exact faulty_slot.mpr h2

theorem walk_ok {s : Shard} {l : Frontier} (h : s.walkChildren.2 = .ok l) :
    ¬ Faulty bad (.shard s) ∧ (∀ v, Entry s v → v ∈ s.walkChildren.1) ∧ ∀ p, partIn l.shards l.cids p ↔ Part.Has (.shard s) p := by
  obtain ⟨_, h2⟩ := walkSlots_spec s.size s.slots ⟨[], []⟩
  rw [Shard.walkChildren] at h
  rw [h] at h2
  obtain ⟨h3, h4, h5⟩ := h2
  refine ⟨fun hf => ?_, fun v hv => ?_, fun p => ?_⟩
  · obtain ⟨x, hx, hf⟩ := faulty_slot.mp hf
    exact h3 x hx hf
  · obtain ⟨x, hx, hv⟩ := entry_slot.mp hv
    exact h4 x hx v hv
  · rw [h5, has_slot]
    constructor
    · rintro (h | h)
      · cases p <;> simp [partIn] at h
      · exact h
    · exact .inr

/-! ### What a state still has to do -/

inductive Info where
  | has (p : Part)
  | fetch (n : Node)
  | emits (v : Link)
  | failing

def Frontier.info (l : Frontier) : Info → Prop
  | .has p => partIn l.shards l.cids p
  | _ => False

def Cont.info : Cont → Info → Prop
  | .shards ss cs, .has p => partIn ss cs p
  | .many pend, .has p => partIn [] pend p
  | .many pend, .fetch n => n ∈ pend
  | _, _ => False

def resInfo (vs : List Link) (r : Except Err Frontier) : Info → Prop
  | .has p => ∃ l, r = .ok l ∧ partIn l.shards l.cids p
  | .emits v => v ∈ vs
  | .failing => ∃ e, r = .error e
  | .fetch _ => False

def visitInfo (cs acc : List Node) : Info → Prop
  | .has p => partIn [] (cs ++ acc) p
  | .fetch n => n ∈ acc
  | _ => False

def Worker.info : Worker → Info → Prop
  | .idle, _ => False
  | .done, _ => False
  | .exit, _ => False
  | .shards ss cs, x => (Cont.shards ss cs).info x
  | .many pend, x => (Cont.many pend).info x
  | .emit vs r k, x => resInfo vs r x ∨ k.info x
  | .out l k, x => l.info x ∨ k.info x
  | .visit cs acc, x => visitInfo cs acc x

def Main.info : Main → Info → Prop
  | .loop next todo _, x => (∃ l, next = some l ∧ l.info x) ∨ ∃ l ∈ todo, l.info x
  | _, _ => False

def Walk.info (g : Walk) (x : Info) : Prop := g.main.info x ∨ ∃ w ∈ g.workers, w.info x

theorem Cont.resume_info (k : Cont) (x : Info) : k.resume.info x ↔ k.info x := by cases k <;> rfl

theorem ex_set {β : Type} {α : Type} (P : α → β → Prop) : ∀ (l : List α) (i : Nat) (a : α), l[i]? = some a →
    ∃ Q : β → Prop, (∀ x, (∃ w ∈ l, P w x) ↔ P a x ∨ Q x) ∧ ∀ b x, (∃ w ∈ l.set i b, P w x) ↔ P b x ∨ Q x
  | [], i, a, h => by simp at h
  | y :: ys, 0, a, h => by
    simp only [List.getElem?_cons_zero, Option.some.injEq] at h
    subst h
    exact ⟨fun x => ∃ w ∈ ys, P w x, fun x => by simp, fun b x => by simp⟩
  | y :: ys, i + 1, a, h => by
    rw [List.getElem?_cons_succ] at h
    obtain ⟨Q, h1, h2⟩ := ex_set P ys i a h
    refine ⟨fun x => P y x ∨ Q x, fun x => ?_, fun b x => ?_⟩
    · simp only [List.mem_cons, exists_eq_or_imp, h1]; exact or_left_comm
    · simp only [List.set_cons_succ, List.mem_cons, exists_eq_or_imp, h2]; exact or_left_comm

/-- The effect of a step: `C` is what it reads. -/
structure Eff (bad : Node → Prop) (g g' : Walk) (C : List Part) : Prop where
  shrink : ∀ p, g'.info (.has p) → g.info (.has p) ∨ ∃ q ∈ C, q.Has p
  src : ∀ q ∈ C, g.info (.has q) ∨ ∃ q' ∈ C, g.info (.has q') ∧ q'.Has q
  keep : g'.stopped ∨ g'.info .failing ∨ ∀ p, g.info (.has p) → p ∈ C ∨ g'.info (.has p) ∨ ∃ n ∈ g.visited, p = .stored n
  read : g'.stopped ∨ g'.info .failing ∨ ∀ q ∈ C, ¬ Faulty bad q ∧ (∀ p, q.Has p → p ∈ C ∨ g'.info (.has p)) ∧
    ∀ s v, q = .shard s → Entry s v → v ∈ g'.got ∨ g'.info (.emits v)
  fetch : g'.stopped ∨ g'.info .failing ∨ ∀ n, g.info (.fetch n) → .stored n ∈ C ∨ g'.info (.fetch n)
  visited : g'.stopped ∨ g'.info .failing ∨ ∀ n ∈ g'.visited, n ∈ g.visited ∨ g'.info (.fetch n)
  vals : g'.stopped ∨ g'.info .failing ∨ ∀ v, v ∈ g.got ∨ g.info (.emits v) → v ∈ g'.got ∨ g'.info (.emits v)
  origin : ∀ v, v ∈ g'.got ∨ g'.info (.emits v) → (v ∈ g.got ∨ g.info (.emits v)) ∨ ∃ s, Part.shard s ∈ C ∧ Entry s v
  failing : g.info .failing → g'.info .failing ∨ g'.stopped
  fault : g'.info .failing → g.info .failing ∨ ∃ q ∈ C, Faulty bad q
  err : g'.gerr.isSome → g.gerr.isSome ∨ g.cancelled = true ∨ g.info .failing ∨ ∃ p, g.info (.has p) ∧ Faulty bad p
  mono : g.stopped → g'.stopped
  cmono : g.cancelled = true → g'.cancelled = true

theorem eff_same {g g' : Walk} (hi : ∀ x, g'.info x ↔ g.info x) (hgot : g'.got = g.got) (hvis : g'.visited = g.visited) (hg : g'.gerr = g.gerr)
    (hc : g'.cancelled = g.cancelled) : Eff bad g g' [] where
  shrink p h := .inl ((hi _).mp h)
  src := by simp
  keep := .inr (.inr fun p h => .inr (.inl ((hi _).mpr h)))
  read := .inr (.inr (by simp))
  fetch := .inr (.inr fun n h => .inr ((hi _).mpr h))
  visited := .inr (.inr fun n h => .inl (by rw [← hvis]; exact h))
  vals := .inr (.inr fun v h => by rw [hgot]; exact h.imp id (hi _).mpr)
  origin v h := .inl (by rw [hgot] at h; exact h.imp id (hi _).mp)
  failing h := .inl ((hi _).mpr h)
  fault h := .inl ((hi _).mp h)
  err h := .inl (by rw [← hg]; exact h)
  mono h := by rw [Walk.stopped, hc, hg]; exact h
  cmono h := by rw [hc]; exact h

theorem eff_stop {g g' : Walk} (hs : g'.stopped) (hi : ∀ x, (∀ v, x ≠ .emits v) → g'.info x → g.info x)
    (hg : g'.gerr.isSome → g.gerr.isSome ∨ g.cancelled = true ∨ g.info .failing ∨ ∃ p, g.info (.has p) ∧ Faulty bad p)
    (hc : g.cancelled = true → g'.cancelled = true) (ho : ∀ v, v ∈ g'.got ∨ g'.info (.emits v) → v ∈ g.got ∨ g.info (.emits v)) : Eff bad g g' [] where
  shrink p h := .inl (hi _ (by simp) h)
  src := by simp
  keep := .inl hs
  read := .inl hs
  fetch := .inl hs
  visited := .inl hs
  vals := .inl hs
  origin v h := .inl (ho v h)
  failing _ := .inr hs
  fault h := .inl (hi _ (by simp) h)
  err := hg
  mono _ := hs
  cmono := hc

theorem eff_worker {g : Walk} {i : Nat} {a : Worker} (hi : g.workers[i]? = some a) :
    ∃ Q : Info → Prop, (∀ x, g.info x ↔ g.main.info x ∨ a.info x ∨ Q x) ∧
      ∀ b x (g' : Walk), g'.workers = g.workers.set i b → (g'.info x ↔ g'.main.info x ∨ b.info x ∨ Q x) := by
  obtain ⟨Q, h1, h2⟩ := ex_set Worker.info g.workers i a hi
  exact ⟨Q, fun x => by rw [Walk.info, h1], fun b x g' hw => by rw [Walk.info, hw, h2]⟩

theorem eff_move {g g' : Walk} {i : Nat} {a b : Worker} (hi : g.workers[i]? = some a) (hw : g'.workers = g.workers.set i b) (hm : g'.main = g.main)
    (hab : ∀ x, b.info x ↔ a.info x) (hgot : g'.got = g.got) (hvis : g'.visited = g.visited) (hg : g'.gerr = g.gerr)
    (hc : g'.cancelled = g.cancelled) : Eff bad g g' [] := by
  obtain ⟨Q, h1, h2⟩ := eff_worker hi
  exact eff_same (fun x => by rw [h1, h2 b x g' hw, hm, hab]) hgot hvis hg hc

theorem fail_gerr (g : Walk) (i : Nat) (e : Err) : (g.fail i e).gerr = g.gerr.or (some e) := rfl

theorem eff_fail {g : Walk} {i : Nat} {a : Worker} {e : Err} (hi : g.workers[i]? = some a)
    (hg : g.gerr.isSome ∨ g.cancelled = true ∨ g.info .failing ∨ ∃ p, g.info (.has p) ∧ Faulty bad p) : Eff bad g (g.fail i e) [] := by
  obtain ⟨Q, h1, h2⟩ := eff_worker hi
  have hb : ∀ x, (g.fail i e).info x → g.info x := by
    intro x h
    rw [h2 .exit x (g.fail i e) rfl] at h
    rw [h1]
    rcases h with h | h | h
    · exact .inl h
    · cases h
    · exact .inr (.inr h)
  exact eff_stop (fail_stopped _ _ _) (fun x _ h => hb x h) (fun _ => hg) id (fun v h => h.imp id (hb _))

theorem step_eff {g g' : Walk} (hq : ∀ todo p, g.main = .loop none todo p → todo = []) (h : Step bad stop g g') : ∃ C, Eff bad g g' C := by
  cases h with
  | feed hm hi =>
    rename_i i l todo p
    obtain ⟨Q, h1, h2⟩ := eff_worker hi
    refine ⟨[], eff_same (fun x => ?_) rfl rfl rfl rfl⟩
    rw [h1, h2 (.shards l.shards l.cids) x _ rfl, hm]
    have : Worker.info (.shards l.shards l.cids) x ↔ l.info x := by cases x <;> exact Iff.rfl
    rw [this]
    simp only [Worker.info, Main.info, false_or, Option.some.injEq, exists_eq_left']
    cases todo with
    | nil => simp
    | cons y ys =>
      simp
      generalize (∃ l ∈ ys, l.info x) = E
      tauto
  | feedClosed hm hi => exact ⟨[], eff_move hi rfl rfl (fun x => Iff.rfl) rfl rfl rfl rfl⟩
  | shard hi =>
    rename_i i s ss cs
    obtain ⟨Q, h1, h2⟩ := eff_worker hi
    have h2' := fun x => h2 (.emit s.walkChildren.1 s.walkChildren.2 (.shards ss cs)) x (g.move i (.emit s.walkChildren.1 s.walkChildren.2 (.shards ss cs))) rfl
    have hk : ∀ x, (Worker.shards (s :: ss) cs).info x → x = .has (.shard s) ∨ (Cont.shards ss cs).info x := by
      intro x hx
      cases x with
      | has p =>
        cases p with
        | shard t => rcases List.mem_cons.mp hx with rfl | hx
                     · exact .inl rfl
                     · exact .inr hx
        | stored n => exact .inr hx
      | _ => cases hx
    have hk' : ∀ x, (Cont.shards ss cs).info x → (Worker.shards (s :: ss) cs).info x := by
      intro x hx
      cases x with
      | has p => cases p with
        | shard t => exact List.mem_cons_of_mem _ hx
        | stored n => exact hx
      | _ => cases hx
    have hs : g.info (.has (.shard s)) := (h1 _).mpr (.inr (.inl (List.mem_cons_self ..)))
    have hkeep : ∀ x, g.info x → x = .has (.shard s) ∨ (g.move i (.emit s.walkChildren.1 s.walkChildren.2 (.shards ss cs))).info x := by
      intro x hx
      rw [h2']
      rcases (h1 x).mp hx with h | h | h
      · exact .inr (.inl h)
      · rcases hk x h with h | h
        · exact .inl h
        · exact .inr (.inr (.inl (.inr h)))
      · exact .inr (.inr (.inr h))
    have hback : ∀ x, (g.move i (.emit s.walkChildren.1 s.walkChildren.2 (.shards ss cs))).info x → g.info x ∨ resInfo s.walkChildren.1 s.walkChildren.2 x := by
      intro x hx
      rw [h1]
      rcases (h2' x).mp hx with h | (h | h) | h
      · exact .inl (.inl h)
      · exact .inr h
      · exact .inl (.inr (.inl (hk' x h)))
      · exact .inl (.inr (.inr h))
    have hres : ∀ x, resInfo s.walkChildren.1 s.walkChildren.2 x → (g.move i (.emit s.walkChildren.1 s.walkChildren.2 (.shards ss cs))).info x :=
      fun x hx => (h2' x).mpr (.inr (.inl (.inl hx)))
    refine ⟨[.shard s], ?_⟩
    exact {
      shrink := fun p h => by
        rcases hback _ h with h | ⟨l, hl, h⟩
        · exact .inl h
        · exact .inr ⟨_, by simp, ((walk_ok (bad := bad) hl).2.2 p).mp h⟩
      src := fun q hq => by rw [List.mem_singleton.mp hq]; exact .inl hs
      keep := .inr (.inr fun p hp => by
        rcases hkeep _ hp with h | h
        · left; cases h; simp
        · exact .inr (.inl h))
      read := by
        cases hr : s.walkChildren.2 with
        | error e => exact .inr (.inl (by rw [← hr]; exact hres .failing ⟨e, hr⟩))
        | ok l =>
          rw [← hr]
          refine .inr (.inr fun q hq => ?_)
          rw [List.mem_singleton.mp hq]
          obtain ⟨h3, h4, h5⟩ := walk_ok (bad := bad) hr
          refine ⟨h3, fun p hp => .inr (hres _ ⟨l, hr, (h5 p).mpr hp⟩), fun t v ht hv => .inr (hres _ ?_)⟩
          cases ht
          exact h4 v hv
      fetch := .inr (.inr fun n hn => .inr ((hkeep _ hn).resolve_left (by simp)))
      visited := .inr (.inr fun n hn => .inl hn)
      vals := .inr (.inr fun v hv => hv.imp id (fun h => (hkeep _ h).resolve_left (by simp)))
      origin := fun v h => by
        rcases h with h | h
        · exact .inl (.inl h)
        · rcases hback _ h with h | h
          · exact .inl (.inr h)
          · exact .inr ⟨s, by simp, walk_entry h⟩
      failing := fun h => .inl ((hkeep _ h).resolve_left (by simp))
      fault := fun h => by
        rcases hback _ h with h | ⟨e, h⟩
        · exact .inl h
        · exact .inr ⟨_, by simp, walk_err h⟩
      err := fun h => .inl h
      mono := fun h => h
      cmono := fun h => h }
  | shardsDone hi =>
    rename_i i cs
    refine ⟨[], eff_move hi rfl rfl (fun x => ?_) rfl rfl rfl rfl⟩
    cases x with
    | has p => simp [Worker.info, visitInfo, Cont.info]
    | _ => simp [Worker.info, visitInfo, Cont.info]
  | emitSend hi hr =>
    rename_i i v vs r k
    obtain ⟨Q, h1, h2⟩ := eff_worker hi
    have h2' : ∀ x, ((g.move i (.emit vs r k)).receive stop v).info x ↔ g.main.info x ∨ (Worker.emit vs r k).info x ∨ Q x := by
      intro x
      rw [h2 (.emit vs r k) x _ (Walk.receive_workers _ _), Walk.receive_main]
      rfl
    have hsame : ∀ x, (∀ v, x ≠ .emits v) → (((g.move i (.emit vs r k)).receive stop v).info x ↔ g.info x) := by
      intro x hx
      rw [h1, h2']
      have : (Worker.emit vs r k).info x ↔ (Worker.emit (v :: vs) r k).info x := by
        cases x with
        | emits v => exact absurd rfl (hx v)
        | _ => exact Iff.rfl
      rw [this]
    have hgerr := Walk.receive_gerr (stop := stop) (g.move i (.emit vs r k)) v
    have hgot : ((g.move i (.emit vs r k)).receive stop v).got = g.got ++ [v] := by rw [Walk.receive]; split <;> rfl
    have horig : ∀ u, u ∈ ((g.move i (.emit vs r k)).receive stop v).got ∨ ((g.move i (.emit vs r k)).receive stop v).info (.emits u) →
        u ∈ g.got ∨ g.info (.emits u) := by
      intro u h
      rw [hgot, h2'] at h
      rw [h1]
      rcases h with h | h | h | h
      · rcases List.mem_append.mp h with h | h
        · exact .inl h
        · rw [List.mem_singleton.mp h]; exact .inr (.inr (.inl (.inl (List.mem_cons_self ..))))
      · exact .inr (.inl h)
      · rcases h with h | h
        · exact .inr (.inr (.inl (.inl (List.mem_cons_of_mem _ h))))
        · exact .inr (.inr (.inl (.inr h)))
      · exact .inr (.inr (.inr h))
    refine ⟨[], ?_⟩
    by_cases hst : stop (g.got ++ [v])
    · have hrc : ((g.move i (.emit vs r k)).receive stop v).cancelled = true := by rw [Walk.receive, if_pos (by exact hst)]
      refine eff_stop (.inl hrc) (fun x hx h => (hsame x hx).mp h) ?_ (fun _ => hrc) horig
      rw [hgerr]; exact fun h => .inl h
    · have hrc : ((g.move i (.emit vs r k)).receive stop v).cancelled = g.cancelled := by rw [Walk.receive, if_neg (by exact hst)]; rfl
      exact {
        shrink := fun p h => .inl ((hsame _ (by simp)).mp h)
        src := by simp
        keep := .inr (.inr fun p h => .inr (.inl ((hsame _ (by simp)).mpr h)))
        read := .inr (.inr (by simp))
        fetch := .inr (.inr fun n h => .inr ((hsame _ (by simp)).mpr h))
        visited := .inr (.inr fun n h => .inl (by rw [Walk.receive_visited] at h; exact h))
        vals := .inr (.inr fun u h => by
          rw [hgot, h2']
          rcases h with h | h
          · exact .inl (List.mem_append_left _ h)
          · rcases (h1 _).mp h with h | h | h
            · exact .inr (.inl h)
            · rcases h with h | h
              · rcases List.mem_cons.mp h with rfl | h
                · exact .inl (List.mem_append_right _ (by simp))
                · exact .inr (.inr (.inl (.inl h)))
              · exact .inr (.inr (.inl (.inr h)))
            · exact .inr (.inr (.inr h)))
        origin := fun v h => .inl (horig v h)
        failing := fun h => .inl ((hsame _ (by simp)).mpr h)
        fault := fun h => .inl ((hsame _ (by simp)).mp h)
        err := fun h => .inl (by rw [hgerr] at h; exact h)
        mono := fun h => by rw [Walk.stopped, hrc, hgerr]; exact h
        cmono := fun h => by rw [hrc]; exact h }
  | emitDrop hi hc =>
    rename_i i v vs r k
    obtain ⟨Q, h1, h2⟩ := eff_worker hi
    have hb : ∀ x, (g.move i (.emit vs r k)).info x → g.info x := by
      intro x h
      rw [h1]
      rcases (h2 (.emit vs r k) x _ rfl).mp h with h | h | h
      · exact .inl h
      · right; left
        cases x with
        | emits v => exact h.imp (List.mem_cons_of_mem _) id
        | _ => exact h
      · exact .inr (.inr h)
    exact ⟨[], eff_stop (.inl hc) (fun x hx h => hb x h) (fun h => .inl h) id (fun v h => h.imp id (hb _))⟩
  | emitErr hi =>
    rename_i i e k
    obtain ⟨Q, h1, h2⟩ := eff_worker hi
    exact ⟨[], eff_fail hi (.inr (.inr (.inl ((h1 _).mpr (.inr (.inl (.inl ⟨e, rfl⟩)))))))⟩
  | emitOk hi =>
    refine ⟨[], eff_move hi rfl rfl (fun x => ?_) rfl rfl rfl rfl⟩
    cases x <;> simp [Worker.info, resInfo, Frontier.info]
  | outSend hm hi =>
    rename_i i l k next todo p
    obtain ⟨Q, h1, h2⟩ := eff_worker hi
    refine ⟨[], eff_same (fun x => ?_) rfl rfl rfl rfl⟩
    rw [h1, h2 k.resume x _ rfl, hm, Cont.resume_info]
    cases next with
    | none =>
      have := hq _ _ hm
      subst this
      simp [Main.push, Main.info, Worker.info]; tauto
    | some y =>
      simp only [Main.push, Main.info, Worker.info, Option.some.injEq, exists_eq_left', List.mem_append, List.mem_singleton, or_and_right, exists_or, exists_eq_left]
      generalize (∃ l ∈ todo, l.info x) = E
      tauto
  | outCancel hi hc =>
    rename_i i l k
    obtain ⟨Q, h1, h2⟩ := eff_worker hi
    have hb : ∀ x, (g.move i .exit).info x → g.info x := by
      intro x h
      rw [h1]
      rcases (h2 .exit x _ rfl).mp h with h | h | h
      · exact .inl h
      · cases h
      · exact .inr (.inr h)
    exact ⟨[], eff_stop hc (fun x hx h => hb x h) (fun h => .inl h) id (fun v h => h.imp id (hb _))⟩
  | visitNew hi hv =>
    rename_i i c cs acc
    obtain ⟨Q, h1, h2⟩ := eff_worker hi
    have h2' := fun x => h2 (.visit cs (acc ++ [c])) x ({ g.move i (.visit cs (acc ++ [c])) with visited := c :: g.visited }) rfl
    have hhas : ∀ p, Worker.info (.visit cs (acc ++ [c])) (.has p) ↔ Worker.info (.visit (c :: cs) acc) (.has p) := by
      intro p
      cases p with
      | shard s => exact Iff.rfl
      | stored n => simp only [Worker.info, visitInfo, partIn, List.mem_append, List.mem_cons, List.not_mem_nil]; tauto
    refine ⟨[], ?_⟩
    exact {
      shrink := fun p h => .inl (by rw [h1, ← hhas]; exact (h2' _).mp h)
      src := by simp
      keep := .inr (.inr fun p h => .inr (.inl (by rw [h2', hhas]; exact (h1 _).mp h)))
      read := .inr (.inr (by simp))
      fetch := .inr (.inr fun n h => .inr (by
        rw [h2']
        rcases (h1 _).mp h with h | h | h
        · exact .inl h
        · exact .inr (.inl (List.mem_append_left _ h))
        · exact .inr (.inr h)))
      visited := .inr (.inr fun n h => by
        rcases List.mem_cons.mp h with rfl | h
        · right; rw [h2']; exact .inr (.inl (List.mem_append_right _ (by simp)))
        · exact .inl h)
      vals := .inr (.inr fun v h => h.imp id (fun h => by
        rw [h2']
        rcases (h1 _).mp h with h | h | h
        · exact .inl h
        · cases h
        · exact .inr (.inr h)))
      origin := fun v h => .inl (h.imp id (fun h => by
        rw [h1]
        rcases (h2' _).mp h with h | h | h
        · exact .inl h
        · cases h
        · exact .inr (.inr h)))
      failing := fun h => by
        left
        rw [h2']
        rcases (h1 _).mp h with h | h | h
        · exact .inl h
        · cases h
        · exact .inr (.inr h)
      fault := fun h => by
        left
        rw [h1]
        rcases (h2' _).mp h with h | h | h
        · exact .inl h
        · cases h
        · exact .inr (.inr h)
      err := fun h => .inl h
      mono := fun h => h
      cmono := fun h => h }
  | visitOld hi hv =>
    rename_i i c cs acc
    obtain ⟨Q, h1, h2⟩ := eff_worker hi
    have h2' := fun x => h2 (.visit cs acc) x (g.move i (.visit cs acc)) rfl
    have hsame : ∀ x, (∀ p, x ≠ .has p) → ((g.move i (.visit cs acc)).info x ↔ g.info x) := by
      intro x hx
      rw [h1, h2']
      cases x with
      | has p => exact absurd rfl (hx p)
      | _ => exact Iff.rfl
    refine ⟨[], ?_⟩
    exact {
      shrink := fun p h => .inl (by
        rw [h1]
        rcases (h2' _).mp h with h | h | h
        · exact .inl h
        · right; left
          cases p with
          | shard s => exact h
          | stored n => exact List.mem_cons_of_mem _ h
        · exact .inr (.inr h))
      src := by simp
      keep := .inr (.inr fun p h => .inr (by
        rw [h2']
        rcases (h1 _).mp h with h | h | h
        · exact .inl (.inl h)
        · cases p with
          | shard s => exact .inl (.inr (.inl h))
          | stored n =>
            rcases List.mem_cons.mp h with rfl | h
            · exact .inr ⟨_, hv, rfl⟩
            · exact .inl (.inr (.inl h))
        · exact .inl (.inr (.inr h))))
      read := .inr (.inr (by simp))
      fetch := .inr (.inr fun n h => .inr ((hsame _ (by simp)).mpr h))
      visited := .inr (.inr fun n h => .inl h)
      vals := .inr (.inr fun v h => h.imp id (fun h => (hsame _ (by simp)).mpr h))
      origin := fun v h => .inl (h.imp id (fun h => (hsame _ (by simp)).mp h))
      failing := fun h => .inl ((hsame _ (by simp)).mpr h)
      fault := fun h => .inl ((hsame _ (by simp)).mp h)
      err := fun h => .inl h
      mono := fun h => h
      cmono := fun h => h }
  | visitDone hi =>
    refine ⟨[], eff_move hi rfl rfl (fun x => ?_) rfl rfl rfl rfl⟩
    cases x <;> simp [Worker.info, visitInfo, Cont.info]
  | manyGot hi hc hb hl =>
    rename_i i pend c s
    obtain ⟨Q, h1, h2⟩ := eff_worker hi
    have h2' := fun x => h2 (.emit s.walkChildren.1 s.walkChildren.2 (.many (pend.erase c))) x (g.move i (.emit s.walkChildren.1 s.walkChildren.2 (.many (pend.erase c)))) rfl
    have hpe : ∀ n, n ∈ pend → n = c ∨ n ∈ pend.erase c := fun n hn => List.mem_cons.mp ((List.perm_cons_erase hc).mem_iff.mp hn)
    have hk : ∀ x, (Worker.many pend).info x → x = .has (.stored c) ∨ x = .fetch c ∨ (Cont.many (pend.erase c)).info x := by
      intro x hx
      cases x with
      | has p =>
        cases p with
        | shard t => cases hx
        | stored n =>
          rcases hpe n hx with rfl | h
          · exact .inl rfl
          · exact .inr (.inr h)
      | fetch n =>
        rcases hpe n hx with rfl | h
        · exact .inr (.inl rfl)
        · exact .inr (.inr h)
      | _ => cases hx
    have hk' : ∀ x, (Cont.many (pend.erase c)).info x → (Worker.many pend).info x := by
      intro x hx
      cases x with
      | has p => cases p with
        | shard t => exact hx
        | stored n => exact List.mem_of_mem_erase hx
      | fetch n => exact List.mem_of_mem_erase hx
      | _ => cases hx
    have hs : g.info (.has (.stored c)) := (h1 _).mpr (.inr (.inl hc))
    have hkeep : ∀ x, g.info x → x = .has (.stored c) ∨ x = .fetch c ∨ (g.move i (.emit s.walkChildren.1 s.walkChildren.2 (.many (pend.erase c)))).info x := by
      intro x hx
      rw [h2']
      rcases (h1 x).mp hx with h | h | h
      · exact .inr (.inr (.inl h))
      · rcases hk x h with h | h | h
        · exact .inl h
        · exact .inr (.inl h)
        · exact .inr (.inr (.inr (.inl (.inr h))))
      · exact .inr (.inr (.inr (.inr h)))
    have hback : ∀ x, (g.move i (.emit s.walkChildren.1 s.walkChildren.2 (.many (pend.erase c)))).info x → g.info x ∨ resInfo s.walkChildren.1 s.walkChildren.2 x := by
      intro x hx
      rw [h1]
      rcases (h2' x).mp hx with h | (h | h) | h
      · exact .inl (.inl h)
      · exact .inr h
      · exact .inl (.inr (.inl (hk' x h)))
      · exact .inl (.inr (.inr h))
    have hres : ∀ x, resInfo s.walkChildren.1 s.walkChildren.2 x → (g.move i (.emit s.walkChildren.1 s.walkChildren.2 (.many (pend.erase c)))).info x :=
      fun x hx => (h2' x).mpr (.inr (.inl (.inl hx)))
    refine ⟨[.stored c, .shard s], ?_⟩
    exact {
      shrink := fun p h => by
        rcases hback _ h with h | ⟨l, hl, h⟩
        · exact .inl h
        · exact .inr ⟨.shard s, by simp, ((walk_ok (bad := bad) hl).2.2 p).mp h⟩
      src := fun q hq => by
        rcases List.mem_cons.mp hq with rfl | hq
        · exact .inl hs
        · rw [List.mem_singleton.mp hq]; exact .inr ⟨.stored c, by simp, hs, .load hl⟩
      keep := .inr (.inr fun p hp => by
        rcases hkeep _ hp with h | h | h
        · left; cases h; simp
        · cases h
        · exact .inr (.inl h))
      read := by
        cases hr : s.walkChildren.2 with
        | error e => exact .inr (.inl (by rw [← hr]; exact hres .failing ⟨e, hr⟩))
        | ok l =>
          rw [← hr]
          refine .inr (.inr fun q hq => ?_)
          rcases List.mem_cons.mp hq with rfl | hq
          · refine ⟨?_, fun p hp => ?_, fun t v ht => by cases ht⟩
            · rintro (h | ⟨e, h⟩)
              · exact hb h
              · rw [hl] at h; cases h
            · cases hp with
              | load h => rw [hl] at h; cases h; left; simp
          · rw [List.mem_singleton.mp hq]
            obtain ⟨h3, h4, h5⟩ := walk_ok (bad := bad) hr
            refine ⟨h3, fun p hp => .inr (hres _ ⟨l, hr, (h5 p).mpr hp⟩), fun t v ht hv => .inr (hres _ ?_)⟩
            cases ht
            exact h4 v hv
      fetch := .inr (.inr fun n hn => by
        rcases hkeep _ hn with h | h | h
        · cases h
        · left; cases h; simp
        · exact .inr h)
      visited := .inr (.inr fun n hn => .inl hn)
      vals := .inr (.inr fun v hv => hv.imp id (fun h => by simpa using hkeep _ h))
      origin := fun v h => by
        rcases h with h | h
        · exact .inl (.inl h)
        · rcases hback _ h with h | h
          · exact .inl (.inr h)
          · exact .inr ⟨s, by simp, walk_entry h⟩
      failing := fun h => .inl (by simpa using hkeep _ h)
      fault := fun h => by
        rcases hback _ h with h | ⟨e, h⟩
        · exact .inl h
        · exact .inr ⟨.shard s, by simp, walk_err h⟩
      err := fun h => .inl h
      mono := fun h => h
      cmono := fun h => h }
  | manyDecode hi hc hb hl =>
    rename_i i pend c e
    obtain ⟨Q, h1, h2⟩ := eff_worker hi
    exact ⟨[], eff_fail hi (.inr (.inr (.inr ⟨.stored c, (h1 _).mpr (.inr (.inl hc)), .inr ⟨e, hl⟩⟩)))⟩
  | manyErr e hi hc =>
    rename_i i pend
    obtain ⟨Q, h1, h2⟩ := eff_worker hi
    refine ⟨[], eff_fail hi ?_⟩
    rcases hc with ⟨c, hc, hb⟩ | hc | hc
    · exact .inr (.inr (.inr ⟨.stored c, (h1 _).mpr (.inr (.inl hc)), .inl hb⟩))
    · exact .inr (.inl hc)
    · exact .inl hc
  | manyDone hi =>
    refine ⟨[], eff_move hi rfl rfl (fun x => ?_) rfl rfl rfl rfl⟩
    cases x with
    | has p => cases p <;> simp [Worker.info, Cont.info, partIn]
    | _ => simp [Worker.info, Cont.info]
  | doneSend hm hi =>
    rename_i i next todo p
    obtain ⟨Q, h1, h2⟩ := eff_worker hi
    refine ⟨[], eff_same (fun x => ?_) rfl rfl rfl rfl⟩
    rw [h1, h2 .idle x _ rfl, hm]
    by_cases hc : p - 1 = 0 ∧ next.isNone
    · have hn : next = none := by simpa using hc.2
      subst hn
      have := hq _ _ hm
      subst this
      simp [hc.1, Main.info, Worker.info]
    · simp only [if_neg hc]
      exact Iff.rfl
  | doneCancel hi hc => exact ⟨[], eff_move hi rfl rfl (fun x => Iff.rfl) rfl rfl rfl rfl⟩
  | mainCancel hm hc =>
    have hb : ∀ x, Walk.info { g with main := .waiting } x → g.info x := by
      intro x h
      rcases h with h | h
      · cases h
      · exact .inr h
    exact ⟨[], eff_stop hc (fun x hx h => hb x h) (fun h => .inl h) id (fun v h => h.imp id (hb _))⟩
  | wait hm hw =>
    refine ⟨[], eff_same (fun x => ?_) rfl rfl rfl rfl⟩
    rw [Walk.info, Walk.info, hm]
    cases g.gerr <;> exact Iff.rfl
  | errSend hm hr => exact ⟨[], eff_same (fun x => by rw [Walk.info, Walk.info, hm]; exact Iff.rfl) rfl rfl rfl rfl⟩
  | errDrop hm hc => exact ⟨[], eff_same (fun x => by rw [Walk.info, Walk.info, hm]; exact Iff.rfl) rfl rfl rfl rfl⟩
  | recvClosed hm hr => exact ⟨[], eff_same (fun x => Iff.rfl) rfl rfl rfl rfl⟩

/-! ### Every part is read -/

/-- `D`: what has been read. -/
structure Cover (bad : Node → Prop) (root : Shard) (g : Walk) (D : Part → Prop) : Prop where
  root : D (.shard root) ∨ g.info (.has (.shard root))
  closed : ∀ p q, D p → p.Has q → D q ∨ g.info (.has q)
  good : ∀ p, D p → ¬ Faulty bad p
  visited : ∀ n ∈ g.visited, D (.stored n) ∨ g.info (.fetch n)
  vals : ∀ s v, D (.shard s) → Entry s v → v ∈ g.got ∨ g.info (.emits v)

def Covered (bad : Node → Prop) (root : Shard) (g : Walk) : Prop := g.stopped ∨ g.info .failing ∨ ∃ D, Cover bad root g D

theorem Worker.fetch_has (w : Worker) (n : Node) (h : w.info (.fetch n)) : w.info (.has (.stored n)) := by
  have hc : ∀ k : Cont, k.info (.fetch n) → k.info (.has (.stored n)) := by
    intro k h
    cases k with
    | shards => cases h
    | many => exact h
  cases w with
  | emit vs r k => rcases h with h | h
                   · cases h
                   · exact .inr (hc k h)
  | out l k => rcases h with h | h
               · cases h
               · exact .inr (hc k h)
  | visit cs acc => exact List.mem_append_right _ h
  | many pend => exact h
  | _ => cases h

theorem Walk.fetch_has {g : Walk} {n : Node} (h : g.info (.fetch n)) : g.info (.has (.stored n)) := by
  rcases h with h | ⟨w, hw, h⟩
  · cases hm : g.main with
    | loop => rw [hm] at h; rcases h with ⟨_, _, h⟩ | ⟨_, _, h⟩ <;> cases h
    | _ => rw [hm] at h; cases h
  · exact .inr ⟨w, hw, w.fetch_has n h⟩

theorem covered_step {root : Shard} {g g' : Walk} {C : List Part} (he : Eff bad g g' C) (h : Covered bad root g) : Covered bad root g' := by
  rcases h with h | h | ⟨D, h⟩
  · exact .inl (he.mono h)
  · rcases he.failing h with h | h
    · exact .inr (.inl h)
    · exact .inl h
  · by_cases hs : g'.stopped
    · exact .inl hs
    by_cases hf : g'.info .failing
    · exact .inr (.inl hf)
    have hkeep := (he.keep.resolve_left hs).resolve_left hf
    have hread := (he.read.resolve_left hs).resolve_left hf
    have hfetch := (he.fetch.resolve_left hs).resolve_left hf
    have hvis := (he.visited.resolve_left hs).resolve_left hf
    have hvals := (he.vals.resolve_left hs).resolve_left hf
    have hhas : ∀ p, g.info (.has p) → (D p ∨ p ∈ C) ∨ g'.info (.has p) := by
      intro p hp
      rcases hkeep p hp with h' | h' | ⟨n, hn, rfl⟩
      · exact .inl (.inr h')
      · exact .inr h'
      · rcases h.visited n hn with h' | h'
        · exact .inl (.inl h')
        · rcases hfetch n h' with h' | h'
          · exact .inl (.inr h')
          · exact .inr (Walk.fetch_has h')
    refine .inr (.inr ⟨fun p => D p ∨ p ∈ C, ?_⟩)
    exact {
      root := by
        rcases h.root with h' | h'
        · exact .inl (.inl h')
        · exact hhas _ h'
      closed := by
        rintro p q (hp | hp) hq
        · rcases h.closed p q hp hq with h' | h'
          · exact .inl (.inl h')
          · exact hhas _ h'
        · exact ((hread p hp).2.1 q hq).imp .inr id
      good := by
        rintro p (hp | hp)
        · exact h.good p hp
        · exact (hread p hp).1
      visited := by
        intro n hn
        rcases hvis n hn with h' | h'
        · rcases h.visited n h' with h' | h'
          · exact .inl (.inl h')
          · exact (hfetch n h').imp .inr id
        · exact .inr h'
      vals := by
        rintro s v (hp | hp) hv
        · exact hvals v (h.vals s v hp hv)
        · exact (hread _ hp).2.2 s v rfl hv }

theorem start_info (n : Nat) (root : Shard) (x : Info) : (Walk.start n root).info x ↔ x = .has (.shard root) := by
  constructor
  · rintro ((⟨l, hl, h⟩ | ⟨l, hl, h⟩) | ⟨w, hw, h⟩)
    · cases hl
      cases x with
      | has p => cases p with
        | shard s => rw [List.mem_singleton.mp h]
        | stored n => cases h
      | _ => cases h
    · cases hl
    · rw [List.eq_of_mem_replicate hw] at h; cases h
  · rintro rfl
    exact .inl (.inl ⟨_, rfl, by simp [Frontier.info, partIn]⟩)

theorem covered_start (n : Nat) (root : Shard) : Covered bad root (Walk.start n root) :=
  .inr (.inr ⟨fun _ => False, ⟨.inr ((start_info _ _ _).mpr rfl), fun _ _ h => h.elim, fun _ h => h.elim, by simp [Walk.start], fun _ _ h => h.elim⟩⟩)

/-! ### Errors have a cause -/

structure Caused (bad : Node → Prop) (root : Shard) (g : Walk) : Prop where
  parts : ∀ p, g.info (.has p) → PartOf root p
  failing : g.info .failing → ∃ p, PartOf root p ∧ Faulty bad p
  gerr : g.gerr.isSome → g.cancelled = true ∨ ∃ p, PartOf root p ∧ Faulty bad p
  origin : ∀ v, v ∈ g.got ∨ g.info (.emits v) → ∃ s, PartOf root (.shard s) ∧ Entry s v

theorem caused_step {root : Shard} {g g' : Walk} {C : List Part} (he : Eff bad g g' C) (h : Caused bad root g) : Caused bad root g' := by
  have hC : ∀ q ∈ C, PartOf root q := by
    intro q hq
    rcases he.src q hq with h' | ⟨q', _, h', hh⟩
    · exact h.parts q h'
    · exact (h.parts q' h').tail hh
  constructor
  · intro p hp
    rcases he.shrink p hp with h' | ⟨q, hq, hh⟩
    · exact h.parts p h'
    · exact (hC q hq).tail hh
  · intro hf
    rcases he.fault hf with h' | ⟨q, hq, hh⟩
    · exact h.failing h'
    · exact ⟨q, hC q hq, hh⟩
  · intro hg
    rcases he.err hg with h' | h' | h' | ⟨p, hp, hh⟩
    · exact (h.gerr h').imp he.cmono id
    · exact .inl (he.cmono h')
    · exact .inr (h.failing h')
    · exact .inr ⟨p, h.parts p hp, hh⟩
  · intro v hv
    rcases he.origin v hv with h' | ⟨s, hs, h'⟩
    · exact h.origin v h'
    · exact ⟨s, hC _ hs, h'⟩

theorem caused_start (n : Nat) (root : Shard) : Caused bad root (Walk.start n root) where
  parts p h := by rw [start_info] at h; cases h; exact .refl
  failing h := by rw [start_info] at h; cases h
  gerr h := by cases h
  origin v h := by
    rcases h with h | h
    · cases h
    · rw [start_info] at h; cases h

/-- All invariants of a run. -/
structure WInv (bad : Node → Prop) (stop : List Link → Bool) (root : Shard) (g : Walk) : Prop where
  ctl : Ctl stop g
  covered : Covered bad root g
  caused : Caused bad root g
  tally : g.tally ≤ sTally root

theorem tally_start (n : Nat) (root : Shard) : (Walk.start n root).tally = sTally root := by
  simp [Walk.start, Walk.tally, Main.tally, Frontier.tally, Worker.tally]

theorem tally_le {a b d : Tally} (h : a + d = b) : a ≤ b := by
  subst h
  exact ⟨Multiset.le_add_right _ _, Multiset.le_add_right _ _⟩

theorem winv_steps {n k : Nat} {root : Shard} {g : Walk} (h : Steps bad stop k (Walk.start n root) g) : WInv bad stop root g := by
  generalize hg0 : Walk.start n root = g0 at h
  induction h with
  | refl => subst hg0; exact ⟨ctl_start n root, covered_start n root, caused_start n root, (tally_start n root).le⟩
  | tail _ hs ih =>
    have h := ih hg0
    obtain ⟨C, he⟩ := step_eff h.ctl.queue hs
    refine ⟨ctl_step h.ctl hs, covered_step he h.covered, caused_step he h.caused, ?_⟩
    cases step_tally h.ctl.queue hs with
    | same h' => rw [h']; exact h.tally
    | lost d h' => exact le_trans (tally_le h') h.tally
    | failing d h' => exact le_trans (tally_le h') h.tally
    | skip c hc h' => exact le_trans (tally_le h') h.tally
  | cancel _ _ ih =>
    have h := ih hg0
    exact ⟨ctl_cancel h.ctl, .inl (.inl rfl), ⟨h.caused.parts, h.caused.failing, fun _ => .inl rfl, h.caused.origin⟩, h.tally⟩

/-- The end of a run that was not disturbed. -/
theorem finished_complete {n k : Nat} {root : Shard} {g : Walk} (h : Steps bad stop k (Walk.start n root) g) (hf : g.Finished) (hc : g.cancelled = false)
    (hr : ∀ e, g.ret ≠ some (.err e)) : g.ret = some .ended ∧ (∀ p, PartOf root p → ¬ Faulty bad p) ∧ ∀ s v, PartOf root (.shard s) → Entry s v → v ∈ g.got := by
  have hi := winv_steps h
  obtain ⟨hm, hw, hn⟩ := hf
  have hg : g.gerr = none := by
    cases hg : g.gerr with
    | none => rfl
    | some e => exact absurd (hi.ctl.reported hm hc e hg) (hr e)
  have hret : g.ret = some .ended := by
    cases hre : g.ret with
    | none => exact absurd hre hn
    | some r =>
      cases r with
      | err e => exact absurd hre (hr e)
      | ended => rfl
      | stopped => rw [(hi.ctl.retStop hre).1] at hc; cases hc
  have hinfo : ∀ x, ¬ g.info x := by
    rintro x (h | ⟨w, hw', h⟩)
    · rw [hm] at h; cases h
    · rw [hw w hw'] at h; cases h
  rcases hi.covered with (h' | h') | h' | ⟨D, hD⟩
  · rw [hc] at h'; cases h'
  · rw [hg] at h'; cases h'
  · exact absurd h' (hinfo _)
  · have hall : ∀ p, PartOf root p → D p := by
      intro p hp
      induction hp with
      | refl => exact hD.root.resolve_right (hinfo _)
      | tail _ hh ih => exact (hD.closed _ _ ih hh).resolve_right (hinfo _)
    exact ⟨hret, fun p hp => hD.good p (hall p hp), fun s v hs hv => (hD.vals s v (hall _ hs) hv).resolve_right (hinfo _)⟩

/-- Nothing is invented or repeated. -/
theorem got_le {n k : Nat} {root : Shard} {g : Walk} (h : Steps bad stop k (Walk.start n root) g) : (g.got : Multiset Link) ≤ (sTally root).1 := by
  have := (winv_steps h).tally
  refine le_trans ?_ this.1
  rw [Walk.tally, add_assoc]
  exact Multiset.le_add_right _ _

end Unixfs.Hamt
