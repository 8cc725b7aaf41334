import Verif.Props.Listed

/-!
# C125: what a directory answers does not depend on what it was asked before

The definitions in this file belong to statements (`Looks`) and proofs; they model no code.
-/

namespace Unixfs.Props
open Unixfs.Hamt hiding exec execAll results NoEmptyName lastWrite Cfg
open Unixfs.Dir Unixfs.File Unixfs.Spec

variable {net net' : Net} {t t' : Nat}

/-- The child in a position, when every block can be fetched. -/
def childAt (s : Shard) (i : Nat) : Option Shard :=
  match (s.get allNet i 0).1 with
  | .ok (c, _) => some c
  | .error _ => none

/-- `s'` is `s` with some of its children loaded, to depth `n`. -/
def Ld : Nat → Shard → Shard → Prop
  | 0, s, s' => s' = s
  | n + 1, s, s' => s'.size = s.size ∧ s'.bf = s.bf ∧ s'.key = s.key ∧ s'.val.map (fun l => (l.tsize, l.target)) = s.val.map (fun l => (l.tsize, l.target)) ∧
      ∀ i : Nat, s'.slots[i]? = s.slots[i]? ∨ ∃ c c', childAt s i = some c ∧ s'.slots[i]? = some (.child c') ∧ Ld n c c'

theorem Ld.up : ∀ {n : Nat} {s s' : Shard}, Ld n s s' → Ld (n + 1) s s'
  | 0, s, s', h => by cases h; exact ⟨rfl, rfl, rfl, rfl, fun _ => .inl rfl⟩
  | n + 1, s, s', ⟨h1, h2, h3, h4, h5⟩ => ⟨h1, h2, h3, h4, fun i => (h5 i).imp_right fun ⟨c, c', a, b, d⟩ => ⟨c, c', a, b, Ld.up d⟩⟩

theorem Ld.mono {n m : Nat} {s s' : Shard} (h : Ld n s s') (hm : n ≤ m) : Ld m s s' := by
  induction hm with
  | refl => exact h
  | step _ ih => exact ih.up

/-- `s'` is `s` with some of its children loaded. -/
def Loaded (s s' : Shard) : Prop := ∃ n, Ld n s s'

theorem Loaded.refl (s : Shard) : Loaded s s := ⟨0, rfl⟩

theorem Loaded.fields {s s' : Shard} (h : Loaded s s') : s'.size = s.size ∧ s'.bf = s.bf ∧ s'.key = s.key ∧
    s'.val.map (fun l => (l.tsize, l.target)) = s.val.map (fun l => (l.tsize, l.target)) := by
  obtain ⟨n, h⟩ := h
  obtain ⟨h1, h2, h3, h4, _⟩ := h.up
  exact ⟨h1, h2, h3, h4⟩

theorem Loaded.value {s s' : Shard} (h : Loaded s s') : s'.isValueNode = s.isValueNode := by
  obtain ⟨_, _, h3, h4⟩ := h.fields
  unfold Shard.isValueNode
  rw [h3]
  congr 1
  have := congrArg Option.isSome h4
  simpa using this

theorem Loaded.length {s s' : Shard} (h : Loaded s s') : s'.slots.length = s.slots.length := by
  obtain ⟨n, h⟩ := h
  obtain ⟨_, _, _, _, h5⟩ := h.up
  have some_of : ∀ {i c}, childAt s i = some c → i < s.slots.length := by
    intro i c h
    by_contra hn
    unfold childAt Shard.get at h
    rw [List.getElem?_eq_none (by omega)] at h
    cases h
  apply Nat.le_antisymm
  · by_contra hn
    rcases h5 s.slots.length with h | ⟨c, c', a, b, _⟩
    · rw [List.getElem?_eq_none (Nat.le_refl _), List.getElem?_eq_none_iff] at h; omega
    · have := some_of a; omega
  · by_contra hn
    rcases h5 s'.slots.length with h | ⟨c, c', a, b, _⟩
    · rw [List.getElem?_eq_none (Nat.le_refl _)] at h
      have := List.getElem?_eq_none_iff.mp h.symm; omega
    · rw [List.getElem?_eq_none (Nat.le_refl _)] at b; cases b

theorem Loaded.set {s s' c c' : Shard} {i : Nat} (h : Loaded s s') (hc : childAt s i = some c) (hl : Loaded c c') : Loaded s (s'.setChild c' i) := by
  obtain ⟨n, h⟩ := h
  obtain ⟨m, hl⟩ := hl
  obtain ⟨h1, h2, h3, h4, h5⟩ := (h.mono (Nat.le_max_left n m)).up
  refine ⟨max n m + 1, ?_⟩
  obtain ⟨a1, a2⟩ := setChild_slots s' c' i
  refine ⟨a2.trans h1, ?_, ?_, ?_, ?_⟩
  · cases s'; exact h2
  · cases s'; exact h3
  · cases s'; exact h4
  · intro j
    rw [a1]
    by_cases hj : i = j
    · subst hj
      by_cases hlt : i < s'.slots.length
      · rw [List.getElem?_set_self hlt]
        exact .inr ⟨c, c', hc, rfl, hl.mono (Nat.le_max_right n m)⟩
      · rw [List.set_eq_of_length_le (by omega)]
        exact h5 i
    · rw [List.getElem?_set_ne hj]
      exact h5 j

theorem get_time (s : Shard) (i t u : Nat) : (s.get allNet i t).1 = (s.get allNet i u).1 := by
  unfold Shard.get
  split
  · rfl
  · rfl
  · split
    · rfl
    · rw [if_pos (show allNet t _ = true from rfl), if_pos (show allNet u _ = true from rfl)]
      split <;> rfl
    · split <;> rfl

/-- A call of `get` on any network: a block cannot be fetched, or the answer is that for all blocks. -/
theorem get_net (s : Shard) (i : Nat) : (s.get net i t).1 = .error .notFound ∨ (s.get net i t).1 = (s.get allNet i 0).1 := by
  unfold Shard.get
  split
  · exact .inr rfl
  · exact .inr rfl
  · split
    · exact .inr rfl
    · rw [if_pos (show allNet 0 _ = true from rfl)]
      split
      · right; split <;> rfl
      · exact .inl rfl
    · right; split <;> rfl

/-- `get` depends on the position only. -/
theorem get_pos {s s2 : Shard} {i : Nat} (hz : s2.size = s.size) (hi : s2.slots[i]? = s.slots[i]?) : (s2.get net i t).1.map Prod.fst = (s.get net i t).1.map Prod.fst := by
  unfold Shard.get
  rw [hi, hz]
  split
  · rfl
  · rfl
  · split
    · rfl
    · split
      · split <;> rfl
      · rfl
    · split <;> rfl

theorem childAt_eq (s : Shard) (i : Nat) : childAt s i = ((s.get allNet i 0).1.map Prod.fst).toOption := by
  unfold childAt
  rcases (s.get allNet i 0).1 with _ | ⟨c, _⟩ <;> rfl

/-- The state that `get` leaves. -/
theorem get_state {s c s1 : Shard} {i t1 : Nat} (h : s.get net i t = (.ok (c, s1), t1)) : s1 = s ∨ s1 = s.setChild c i := by
  unfold Shard.get at h
  repeat' split at h
  all_goals first | (cases h; done) | (cases h; first | exact .inl rfl | exact .inr rfl)

theorem Loaded.get_ok {s s' c' s1' : Shard} {i t1 : Nat} (h : Loaded s s') (hg : s'.get net i t = (.ok (c', s1'), t1)) : ∃ c, childAt s i = some c ∧ Loaded c c' ∧ Loaded s s1' := by
  have key : ∃ c, childAt s i = some c ∧ Loaded c c' := by
    obtain ⟨n, h⟩ := h
    obtain ⟨h1, _, _, _, h5⟩ := h.up
    rcases h5 i with hi | ⟨c, d, a, b, hd⟩
    · refine ⟨c', ?_, .refl _⟩
      have e1 : (s'.get net i t).1 = .ok (c', s1') := by rw [hg]
      have e2 := (get_net (net := net) (t := t) s' i).resolve_left (by rw [e1]; exact fun h => by cases h)
      have e3 := get_pos (net := allNet) (t := 0) h1 hi
      rw [childAt_eq, ← e3, ← e2, e1]
      rfl
    · refine ⟨c, a, n, ?_⟩
      unfold Shard.get at hg
      rw [b] at hg
      cases hg
      exact hd
  obtain ⟨c, hc, hl⟩ := key
  refine ⟨c, hc, hl, ?_⟩
  rcases get_state hg with rfl | rfl
  · exact h
  · exact h.set hc hl

theorem Loaded.get_error {s s' : Shard} {e : Err} {i t1 : Nat} (h : Loaded s s') (hg : s'.get net i t = (.error e, t1)) (he : e ≠ .notFound) (u : Nat) : (s.get allNet i u).1 = .error e := by
  obtain ⟨n, h⟩ := h
  obtain ⟨h1, _, _, _, h5⟩ := h.up
  rcases h5 i with hi | ⟨c, d, a, b, hd⟩
  · have e1 : (s'.get net i t).1 = .error e := by rw [hg]
    have e2 := (get_net (net := net) (t := t) s' i).resolve_left (by rw [e1]; exact fun h => he (by cases h; rfl))
    have e3 := get_pos (net := allNet) (t := 0) h1 hi
    rw [get_time s i u 0]
    rw [← e2, e1] at e3
    cases h : (s.get allNet i 0).1 with
    | error x => rw [h] at e3; cases e3; rfl
    | ok x => rw [h] at e3; cases e3
  · unfold Shard.get at hg
    rw [b] at hg
    cases hg

/-- What the callback of `Find` is given, without the name of the link. -/
def tgt : Except Err (Option Link) → Except Err (Option Node) := Except.map (Option.map Link.target)

theorem find_loaded (H : Hash) : ∀ (f : Nat) (s s' : Shard) (n : Nat) (key : Bytes) (t u : Nat), Loaded s s' →
    ((s'.getValue H net f n key t).1 = .error .notFound ∨ tgt (s'.getValue H net f n key t).1 = tgt (s.getValue H allNet f n key u).1) ∧ Loaded s (s'.getValue H net f n key t).2.1
  | 0, s, s', n, key, t, u, h => ⟨.inr rfl, h⟩
  | f + 1, s, s', n, key, t, u, h => by
    obtain ⟨h1, h2, h3, h4⟩ := h.fields
    unfold Shard.getValue
    rw [show s'.lg = s.lg by unfold Shard.lg; rw [h1], h2]
    cases hb : nextBits (H key) n s.lg with
    | error e => exact ⟨.inr rfl, h⟩
    | ok x =>
      obtain ⟨idx, n'⟩ := x
      dsimp only
      rw [show s'.sliceIndex idx = s.sliceIndex idx by unfold Shard.sliceIndex; rw [h2]]
      split
      · exact ⟨.inr rfl, h⟩
      rcases hg : s'.get net (s.sliceIndex idx) t with ⟨e | ⟨c', s1'⟩, t1⟩
      · dsimp only
        refine ⟨?_, h⟩
        by_cases he : e = .notFound
        · exact .inl (by rw [he])
        · right
          have := h.get_error hg he u
          rcases hg0 : s.get allNet (s.sliceIndex idx) u with ⟨e0 | x0, u1⟩
          · rw [hg0] at this; cases this; rfl
          · rw [hg0] at this; cases this
      · obtain ⟨c, hc, hl, hs⟩ := h.get_ok hg
        dsimp only
        rcases hg0 : s.get allNet (s.sliceIndex idx) u with ⟨e0 | ⟨c0, s0⟩, u1⟩
        · have := get_time s (s.sliceIndex idx) u 0
          rw [hg0] at this
          unfold childAt at hc
          rw [← this] at hc
          cases hc
        · have hcc : c0 = c := by
            have := get_time s (s.sliceIndex idx) u 0
            rw [hg0] at this
            unfold childAt at hc
            rw [← this] at hc
            cases hc; rfl
          subst hcc
          dsimp only
          obtain ⟨f1, f2, f3, f4⟩ := hl.fields
          rw [hl.value]
          by_cases hv : c0.isValueNode = true
          · rw [if_pos hv, if_pos hv, f3]
            by_cases hk : c0.key = key
            · rw [if_pos hk, if_pos hk]
              refine ⟨.inr ?_, hs⟩
              have := congrArg (Option.map Prod.snd) f4
              simp only [Option.map_map] at this
              exact congrArg Except.ok this
            · rw [if_neg hk, if_neg hk]
              exact ⟨.inr rfl, hs⟩
          · rw [if_neg hv, if_neg hv]
            obtain ⟨a, b⟩ := find_loaded H f c0 c' n' key t1 u1 hl
            exact ⟨a, hs.set hc b⟩

/-- What `ForEachLink` lists when every block can be fetched. -/
def listF : Nat → Shard → List Link
  | 0, _ => []
  | f + 1, s => (List.range s.slots.length).flatMap fun i =>
    match childAt s i with
    | none => []
    | some c => if c.isValueNode then [Link.rename (c.val.getD (.mk [] 0 default)) c.key] else listF f c

theorem each_loaded {step : Shard → EachSt → Option Err × Shard × EachSt} {w : Shard → List Link} {s : Shard}
    (hstep : ∀ c c' st, Loaded c c' → Loaded c (step c' st).2.1 ∧ ((step c' st).1 = none → (step c' st).2.2.out = st.out ++ w c)) :
    ∀ (is : List Nat) (s' : Shard) (st : EachSt), Loaded s s' → Loaded s (eachLoop net step is s' st).2.1 ∧
      ((eachLoop net step is s' st).1 = none → (eachLoop net step is s' st).2.2.out = st.out ++ is.flatMap fun i => match childAt s i with | none => [] | some c => w c)
  | [], s', st, h => ⟨h, fun _ => by simp [eachLoop]⟩
  | i :: is, s', st, h => by
    unfold eachLoop
    rcases hg : s'.get net i st.t with ⟨e | ⟨c', s1'⟩, t1⟩
    · exact ⟨h, fun he => by cases he⟩
    · obtain ⟨c, hc, hl, hs⟩ := h.get_ok hg
      dsimp only
      obtain ⟨a, b⟩ := hstep c c' { st with t := t1 } hl
      rcases hx : step c' { st with t := t1 } with ⟨_ | e, c2, st2⟩
      · rw [hx] at a b
        dsimp only at a b ⊢
        obtain ⟨p, q⟩ := each_loaded hstep is (s1'.setChild c2 i) st2 (hs.set hc a)
        refine ⟨p, fun he => ?_⟩
        rw [q he, b rfl, List.flatMap_cons, hc, List.append_assoc]
      · rw [hx] at a
        exact ⟨hs.set hc a, fun he => by cases he⟩

theorem list_loaded (cb : Nat → Bool) : ∀ (f g : Nat) (s s' : Shard) (st : EachSt), f ≤ g → Loaded s s' →
    Loaded s (forEachF net cb f s' st).2.1 ∧ ((forEachF net cb f s' st).1 = none → (forEachF net cb f s' st).2.2.out = st.out ++ listF g s)
  | 0, g, s, s', st, hg, h => ⟨h, fun he => by cases he⟩
  | f + 1, 0, s, s', st, hg, h => by omega
  | f + 1, g + 1, s, s', st, hg, h => by
    unfold forEachF
    rw [h.length, listF]
    refine each_loaded (w := fun c => if c.isValueNode then [Link.rename (c.val.getD (.mk [] 0 default)) c.key] else listF g c) ?_ _ _ _ h
    intro c c' st hl
    obtain ⟨f1, f2, f3, f4⟩ := hl.fields
    rw [hl.value]
    by_cases hv : c.isValueNode = true
    · rw [if_pos hv]
      simp only [if_pos hv]
      have hr : Link.rename (c'.val.getD (.mk [] 0 default)) c'.key = Link.rename (c.val.getD (.mk [] 0 default)) c.key := by
        rw [f3]
        cases h1 : c'.val with
        | none =>
          cases h2 : c.val with
          | none => rfl
          | some l => rw [h1, h2] at f4; cases f4
        | some l =>
          cases h2 : c.val with
          | none => rw [h1, h2] at f4; cases f4
          | some m =>
            rw [h1, h2] at f4
            simp only [Option.map_some, Option.some.injEq, Prod.mk.injEq] at f4
            simp only [Option.getD_some, Link.rename, f4.1, f4.2]
      refine ⟨?_, fun _ => by rw [hr]⟩
      have hval : ∃ l, c.val = some l := by
        have : c.val.isSome = true := by
          unfold Shard.isValueNode at hv
          simp only [Bool.and_eq_true] at hv
          exact hv.2
        exact Option.isSome_iff_exists.mp this
      obtain ⟨l, hval⟩ := hval
      rw [hr]
      obtain ⟨n, hn⟩ := hl
      obtain ⟨h1, h2, h3, h4, h5⟩ := hn.up
      refine ⟨n + 1, ?_⟩
      cases c'
      refine ⟨h1, h2, h3, ?_, h5⟩
      rw [hval]
      rfl
    · rw [if_neg hv]
      simp only [if_neg hv]
      exact list_loaded cb f g c c' st (by omega) hl

/-- The function that `ForEachLink` calls on every child. -/
theorem step_loaded (cb : Nat → Bool) (f : Nat) (c c' : Shard) (st : EachSt) (hl : Loaded c c') :
    Loaded c (if c'.isValueNode then
        let l := Link.rename (c'.val.getD (.mk [] 0 default)) c'.key
        (if cb st.out.length then some (.hamt "callback") else none, c'.withVal l, { st with out := st.out ++ [l] })
      else forEachF net cb f c' st : Option Err × Shard × EachSt).2.1 := by
  by_cases hv : c'.isValueNode = true
  · rw [if_pos hv]
    have hval : ∃ l, c'.val = some l := by
      have : c'.val.isSome = true := by
        unfold Shard.isValueNode at hv
        simp only [Bool.and_eq_true] at hv
        exact hv.2
      exact Option.isSome_iff_exists.mp this
    obtain ⟨l, hval⟩ := hval
    obtain ⟨n, hn⟩ := hl
    obtain ⟨h1, h2, h3, h4, h5⟩ := hn.up
    refine ⟨n + 1, ?_⟩
    rw [hval] at h4 ⊢
    cases c'
    exact ⟨h1, h2, h3, h4, h5⟩
  · rw [if_neg hv]
    exact (list_loaded cb f f c c' st (Nat.le_refl _) hl).1

/-- Two states of a directory of which the second differs from the first in what is loaded only. -/
def SameDir : Dir → Dir → Prop
  | .basic b, .basic b' => b' = b
  | .hamt h, .hamt h' => Loaded h.shard h'.shard
  | _, _ => False

/-- Calls that only look. -/
def Looks : DOp → Prop
  | .find _ | .links | .forEach _ => True
  | _ => False

theorem looks_same {env : Env} {op : DOp} {c : Dir.Cfg} {d : Dir} (h : SameDir d c.dir) (ho : Looks op) : SameDir d (exec env op c).2.dir := by
  cases op with
  | find name =>
    simp only [exec, Dir.find]
    cases hd : c.dir with
    | basic b =>
      rw [hd] at h
      dsimp only
      rcases b.find env name c.t with ⟨_ | _, _⟩ <;> exact h
    | hamt x =>
      rw [hd] at h
      match d, h with
      | .hamt y, h =>
        have := (find_loaded (net := env.net) env.H (Shard.fuel env.H name) y.shard x.shard 0 name c.t 0 h).2
        dsimp only [HamtDir.find, Shard.find]
        rcases hr : x.shard.getValue env.H env.net (Shard.fuel env.H name) 0 name c.t with ⟨_ | _ | l, s2, t2⟩
        · rw [hr] at this; exact this
        · rw [hr] at this; exact this
        · rw [hr] at this
          dsimp only
          split
          · next he => obtain ⟨_, rfl⟩ := Prod.mk.inj he; exact this
          · next he => obtain ⟨_, rfl⟩ := Prod.mk.inj he; exact this
  | links =>
    simp only [exec, Dir.links]
    cases hd : c.dir with
    | basic b => rw [hd] at h; first | exact h | (dsimp only; rw [hd]; exact h)
    | hamt x => rw [hd] at h; first | exact h | (dsimp only; rw [hd]; exact h)
  | forEach cb =>
    simp only [exec, Dir.forEachLink]
    cases hd : c.dir with
    | basic b => dsimp only; rw [hd]; rw [hd] at h; exact h
    | hamt x =>
      rw [hd] at h
      match d, h with
      | .hamt y, h => exact (list_loaded (net := env.net) cb x.shard.depth x.shard.depth y.shard x.shard { out := [], t := c.t } (Nat.le_refl _) h).1
  | _ => cases ho

theorem asked_same {env : Env} {d : Dir} : ∀ (ops : List DOp) (c : Dir.Cfg), SameDir d c.dir → (∀ op ∈ ops, Looks op) → SameDir d (execAll env ops c).dir
  | [], c, h, _ => h
  | op :: ops, c, h, ho => asked_same ops _ (looks_same h (ho op (List.mem_cons_self ..))) (fun x hx => ho x (List.mem_cons_of_mem _ hx))

theorem SameDir.refl (d : Dir) : SameDir d d := by
  cases d with
  | basic b => rfl
  | hamt h => exact Loaded.refl _

/-- A call of `Find` on any network: a block cannot be fetched, or the answer is that of the first state for all blocks. -/
theorem find_base {env : Env} {c : Dir.Cfg} {d : Dir} {name : Bytes} (h : SameDir d c.dir) {env0 : Env} {c0 : Dir.Cfg} (hH : env0.H = env.H) (hn : env0.net = allNet)
    (h0 : c0.dir = d) : (Dir.find env c name).1 = .error .notFound ∨ (Dir.find env c name).1 = (Dir.find env0 c0 name).1 := by
  unfold Dir.find
  rw [h0]
  cases hd : c.dir with
  | basic b =>
    rw [hd] at h
    match d, h with
    | .basic b', h =>
      cases h
      dsimp only [Basic.find]
      cases b.getNodeLink name with
      | none => exact .inr rfl
      | some l =>
        dsimp only
        rw [hn, if_pos (show allNet c0.t l.target = true from rfl)]
        split
        · exact .inr rfl
        · exact .inl rfl
  | hamt x =>
    rw [hd] at h
    match d, h with
    | .hamt y, h =>
      have := (find_loaded (net := env.net) env.H (Shard.fuel env.H name) y.shard x.shard 0 name c.t c0.t h).1
      dsimp only [HamtDir.find, Shard.find]
      rw [hH, hn]
      rcases hr : x.shard.getValue env.H env.net (Shard.fuel env.H name) 0 name c.t with ⟨r, s2, t2⟩
      rcases hr0 : y.shard.getValue env.H allNet (Shard.fuel env.H name) 0 name c0.t with ⟨r0, s0, t0⟩
      rw [hr, hr0] at this
      dsimp only at this
      rcases this with rfl | h1
      · exact .inl rfl
      match r, r0, h1 with
      | .error e, .error e0, h1 => cases h1; exact .inr rfl
      | .ok none, .ok none, h1 => exact .inr rfl
      | .ok (some l), .ok (some m), h1 =>
        have hlm : l.target = m.target := by
          simp only [tgt, Except.map, Option.map_some] at h1
          injection h1 with h1
          injection h1
        dsimp only
        rw [if_pos (show allNet t0 m.target = true from rfl), hlm]
        split
        · exact .inr rfl
        · exact .inl rfl

/-- C125: what `Find` answers for a name does not depend on what was asked before, whatever blocks could be fetched then or can be fetched now: two answers, other than that a block cannot be
fetched, are equal. They may be nodes, "does not exist" and the errors of malformed shards. -/
theorem C125_find {env env' : Env} {c c' : Dir.Cfg} {ops ops' : List DOp} {name : Bytes} (hd : c.dir = c'.dir) (hH : env.H = env'.H) (ho : ∀ op ∈ ops, Looks op) (ho' : ∀ op ∈ ops', Looks op)
    (h : (Dir.find env (execAll env ops c) name).1 ≠ .error .notFound) (h' : (Dir.find env' (execAll env' ops' c') name).1 ≠ .error .notFound) :
    (Dir.find env (execAll env ops c) name).1 = (Dir.find env' (execAll env' ops' c') name).1 := by
  have e1 := (find_base (env := env) (name := name) (asked_same (env := env) ops c (.refl _) ho) (env0 := { env with net := allNet }) rfl rfl (c0 := c) rfl).resolve_left h
  have e2 := (find_base (env := env') (name := name) (asked_same (env := env') ops' c' (.refl _) ho') (env0 := { env with net := allNet }) hH rfl (c0 := c) hd).resolve_left h'
  rw [e1, e2]

/-- C125: nor does what `ForEachLink` lists: two enumerations that end without an error list the same. -/
theorem C125_list {env env' : Env} {c c' : Dir.Cfg} {ops ops' : List DOp} (hd : c.dir = c'.dir) (ho : ∀ op ∈ ops, Looks op) (ho' : ∀ op ∈ ops', Looks op)
    (h : (linksAndError env (execAll env ops c)).2 = none) (h' : (linksAndError env' (execAll env' ops' c')).2 = none) :
    (linksAndError env (execAll env ops c)).1 = (linksAndError env' (execAll env' ops' c')).1 := by
  have e1 := asked_same (env := env) ops c (.refl _) ho
  have e2 := asked_same (env := env') ops' c' (.refl _) ho'
  rw [← hd] at e2
  generalize execAll env ops c = a at *
  generalize execAll env' ops' c' = a' at *
  simp only [linksAndError, forEachLink] at h h' ⊢
  cases hb : c.dir with
  | basic b =>
    rw [hb] at e1 e2
    match ha : a.dir, ha' : a'.dir, e1, e2 with
    | .basic b1, .basic b2, e1, e2 => cases e1; cases e2; rfl
  | hamt x =>
    rw [hb] at e1 e2
    match ha : a.dir, ha' : a'.dir, e1, e2 with
    | .hamt y, .hamt z, e1, e2 =>
      rw [ha] at h
      rw [ha'] at h'
      have l1 := (list_loaded (net := env.net) (fun _ => false) y.shard.depth (max y.shard.depth z.shard.depth) x.shard y.shard { out := [], t := a.t } (Nat.le_max_left ..) e1).2 h
      have l2 := (list_loaded (net := env'.net) (fun _ => false) z.shard.depth (max y.shard.depth z.shard.depth) x.shard z.shard { out := [], t := a'.t } (Nat.le_max_right ..) e2).2 h'
      exact l1.trans l2.symm

/-- A loop that ends well has given every child, in some state of loading, to its function. -/
theorem each_visits {step : Shard → EachSt → Option Err × Shard × EachSt} (hmono : ∀ c st, st.out ⊆ (step c st).2.2.out) {s c : Shard} {i : Nat}
    (hstep : ∀ c c' st, Loaded c c' → Loaded c (step c' st).2.1) (hc : childAt s i = some c) :
    ∀ (is : List Nat) (s' s1 : Shard) (st st1 : EachSt), Loaded s s' → eachLoop net step is s' st = (none, s1, st1) → i ∈ is →
      ∃ c' sta c1 stb, Loaded c c' ∧ step c' sta = (none, c1, stb) ∧ stb.out ⊆ st1.out
  | [], s', s1, st, st1, h, he, hi => by cases hi
  | j :: is, s', s1, st, st1, h, he, hi => by
    unfold eachLoop at he
    rcases hg : s'.get net j st.t with ⟨e | ⟨cj, sa⟩, ta⟩
    · rw [hg] at he; cases he
    rw [hg] at he
    dsimp only at he
    obtain ⟨d, hd, hl, hs⟩ := h.get_ok hg
    have hk := hstep d cj { st with t := ta } hl
    rcases hsj : step cj { st with t := ta } with ⟨_ | e, c1, x1⟩
    · rw [hsj] at he hk
      dsimp only at he hk
      by_cases hij : i = j
      · subst hij
        rw [hc] at hd
        cases hd
        have := eachLoop_mono (net := net) hmono is (sa.setChild c1 i) x1
        rw [he] at this
        exact ⟨_, _, _, _, hl, hsj, this⟩
      · exact each_visits hmono hstep hc is _ _ _ _ (hs.set hd hk) he ((List.mem_cons.mp hi).resolve_left hij)
    · rw [hsj] at he; cases he

theorem found_listed (H : Hash) : ∀ (f g : Nat) (s sa sb s1 s2 : Shard) (n : Nat) (key : Bytes) (t t1 : Nat) (l : Link) (st st1 : EachSt), Loaded s sa → Loaded s sb →
    sa.getValue H net f n key t = (.ok (some l), s2, t1) → forEachF net' (fun _ => false) g sb st = (none, s1, st1) → ∃ m ∈ st1.out, m.name = key ∧ m.target = l.target
  | 0, g, s, sa, sb, s1, s2, n, key, t, t1, l, st, st1, ha, hb, h, h' => by cases h
  | f + 1, 0, s, sa, sb, s1, s2, n, key, t, t1, l, st, st1, ha, hb, h, h' => by cases h'
  | f + 1, g + 1, s, sa, sb, s1, s2, n, key, t, t1, l, st, st1, ha, hb, h, h' => by
    unfold Shard.getValue at h
    unfold forEachF at h'
    cases hx : nextBits (H key) n sa.lg with
    | error e => rw [hx] at h; cases h
    | ok x =>
      obtain ⟨idx, n'⟩ := x
      rw [hx] at h
      dsimp only at h
      split at h
      · cases h
      rcases hg : sa.get net (sa.sliceIndex idx) t with ⟨_ | ⟨ca, s3⟩, ta⟩
      · rw [hg] at h; cases h
      rw [hg] at h
      dsimp only at h
      have hlt : sa.sliceIndex idx < sa.slots.length := by
        by_contra hn
        unfold Shard.get at hg
        rw [List.getElem?_eq_none (by omega)] at hg
        cases hg
      obtain ⟨c, hc, hl, _⟩ := ha.get_ok hg
      obtain ⟨cb, sta, c', stb, hlb, hstep, hsub⟩ := each_visits (by
        intro c st
        split
        · exact List.subset_append_left _ _
        · exact forEachF_mono _ g c st) (by
        intro c c' st hl
        exact step_loaded (net := net') (fun _ => false) g c c' st hl) hc _ _ _ _ _ hb h' (List.mem_range.mpr (by rw [hb.length, ← ha.length]; exact hlt))
      have hva := hl.value
      have hvb := hlb.value
      split at h
      · next hv =>
        rw [if_pos (by rw [hvb, ← hva]; exact hv)] at hstep
        split at h
        · next hk =>
          cases hstep
          refine ⟨_, hsub (List.mem_append_right _ (List.mem_singleton.mpr rfl)), ?_, ?_⟩
          · exact (hlb.fields.2.2.1.trans hl.fields.2.2.1.symm).trans hk
          · have hval : ca.val = some l := by injection h with h _; injection h
            have e := hlb.fields.2.2.2.trans hl.fields.2.2.2.symm
            rw [hval] at e
            cases hcb : cb.val with
            | none => rw [hcb] at e; cases e
            | some m =>
              rw [hcb] at e
              simp only [Option.map_some, Option.some.injEq, Prod.mk.injEq] at e
              exact e.2
        · cases h
      · next hv =>
        rw [if_neg (by rw [hvb, ← hva]; exact hv)] at hstep
        rcases hr : ca.getValue H net f n' key ta with ⟨r, c2, t2⟩
        rw [hr] at h
        dsimp only at h
        have hrr : r = .ok (some l) := by injection h
        subst hrr
        obtain ⟨m, hm, h1, h2⟩ := found_listed H f g c ca cb _ _ _ _ _ _ _ _ _ hl hlb hr hstep
        exact ⟨m, hsub hm, h1, h2⟩

/-- C125: what one program finds, another lists, whatever either has asked before. -/
theorem C125_found_is_listed {env env' : Env} {c c' : Dir.Cfg} {ops ops' : List DOp} {name : Bytes} {nd : Node} (hd : c.dir = c'.dir) (ho : ∀ op ∈ ops, Looks op) (ho' : ∀ op ∈ ops', Looks op)
    (h : (Dir.find env (execAll env ops c) name).1 = .ok nd) (h' : (linksAndError env' (execAll env' ops' c')).2 = none) :
    ∃ l ∈ (linksAndError env' (execAll env' ops' c')).1, l.name = name ∧ l.target = nd := by
  have e1 := asked_same (env := env) ops c (.refl _) ho
  have e2 := asked_same (env := env') ops' c' (.refl _) ho'
  rw [← hd] at e2
  generalize execAll env ops c = a at *
  generalize execAll env' ops' c' = a' at *
  cases hb : c.dir with
  | basic b =>
    rw [hb] at e1 e2
    refine C124_found_is_listed (c := a) ?_ h h'
    match ha : a.dir, ha' : a'.dir, e1, e2 with
    | .basic b1, .basic b2, e1, e2 => cases e1; cases e2; rfl
  | hamt x =>
    rw [hb] at e1 e2
    simp only [linksAndError, forEachLink] at h' ⊢
    unfold Dir.find at h
    match ha : a.dir, ha' : a'.dir, e1, e2 with
    | .hamt y, .hamt z, e1, e2 =>
      rw [ha] at h
      rw [ha'] at h'
      dsimp only at h h' ⊢
      rw [Shard.forEachLink] at h' ⊢
      rcases hx : forEachF env'.net (fun _ => false) z.shard.depth z.shard { out := [], t := a'.t } with ⟨e, s1, st1⟩
      rw [hx] at h'
      dsimp only at h' ⊢
      subst h'
      unfold HamtDir.find at h
      rcases hr : y.shard.find env.H env.net name a.t with ⟨r, s2, t2⟩
      rw [hr] at h
      match r, hr, h with
      | .error e, _, h => cases h
      | .ok none, _, h => cases h
      | .ok (some l), hr, h =>
        dsimp only at h
        split at h
        · cases h
          exact found_listed env.H _ _ _ _ _ _ _ _ _ _ _ _ _ _ e1 e2 hr hx
        · cases h

section Examples

/-- A shard of width 8. -/
def exBits (bf : UInt8) (ls : List Link) : Node := .proto (mustMarshal { typ := some THAMTShard, data := some [bf], hashType := some 0x22, fanout := some 8 }) ls .v0
/-- A directory of three shards, one below the other. -/
def exDeep : Node := exBits 0x08 [.mk [0x33] 1 (exBits 0x01 [.mk [0x30] 1 (exBits 0x14 [.mk [0x32, 0x61] 1 (exNd 1), .mk [0x34, 0x62] 1 (exNd 2)])])]
/-- The first fetch fails. -/
def lateEnv : Env := { calmEnv H0 with net := fun t _ => decide (0 < t) }

theorem exDeep_runs : (match newDirectoryFromNode exDeep with
    | .ok d => decide (((Dir.find (calmEnv H0) (execAll (calmEnv H0) [.forEach (fun _ => false), .find [0x62]] (start d 0)) [0x61]).1.toOption,
        (Dir.find lateEnv (execAll lateEnv [.find [0x61]] (start d 0)) [0x61]).1.toOption, (Dir.find lateEnv (start d 0) [0x61]).1.toOption,
        (linksAndError (calmEnv H0) (execAll (calmEnv H0) [.forEach (fun _ => false), .find [0x62]] (start d 0))).2,
        (linksAndError lateEnv (execAll lateEnv [.find [0x61]] (start d 0))).2) = (some (exNd 1), some (exNd 1), none, none, none))
    | _ => false) = true := by decide +kernel

/-- The hypotheses are met by a directory that was enumerated before, and by the same directory when the first lookup failed for want of a block. -/
example : ∃ d, newDirectoryFromNode exDeep = .ok d ∧
    (Dir.find (calmEnv H0) (execAll (calmEnv H0) [.forEach (fun _ => false), .find [0x62]] (start d 0)) [0x61]).1 = (Dir.find lateEnv (execAll lateEnv [.find [0x61]] (start d 0)) [0x61]).1 ∧
    (linksAndError (calmEnv H0) (execAll (calmEnv H0) [.forEach (fun _ => false), .find [0x62]] (start d 0))).1 = (linksAndError lateEnv (execAll lateEnv [.find [0x61]] (start d 0))).1 ∧
    ∃ l ∈ (linksAndError lateEnv (execAll lateEnv [.find [0x61]] (start d 0))).1, l.name = [0x61] ∧ l.target = exNd 1 := by
  have h := exDeep_runs
  split at h
  · next d hd =>
    have h := of_decide_eq_true h
    simp only [Prod.mk.injEq] at h
    obtain ⟨h1, h2, _, h4, h5⟩ := h
    have l1 : ∀ op ∈ ([.forEach (fun _ => false), .find [0x62]] : List DOp), Looks op := by
      intro op hop; simp only [List.mem_cons, List.not_mem_nil, or_false] at hop; rcases hop with rfl | rfl <;> trivial
    have l2 : ∀ op ∈ ([.find [0x61]] : List DOp), Looks op := by
      intro op hop; simp only [List.mem_cons, List.not_mem_nil, or_false] at hop; subst hop; trivial
    exact ⟨d, hd, C125_find rfl rfl l1 l2 (fun he => by rw [he] at h1; cases h1) (fun he => by rw [he] at h2; cases h2), C125_list rfl l1 l2 h4 h5,
      C125_found_is_listed (env := calmEnv H0) (c := start d 0) (c' := start d 0) rfl l1 l2 (by
        generalize (Dir.find (calmEnv H0) (execAll (calmEnv H0) [.forEach (fun _ => false), .find [0x62]] (start d 0)) [0x61]).1 = r at h1
        cases r with
        | error e => cases h1
        | ok x => cases h1; rfl) h5⟩
  · cases h

end Examples

end Unixfs.Props
