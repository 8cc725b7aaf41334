import Verif.Dir.Hist
import Verif.Dir.Crash
import Verif.Spec.Range

/-! # Directories whose nodes are all in a store (C109)

The definitions in this file belong to proofs; they model no code.
-/

namespace Unixfs.Hamt
open Unixfs.Spec

variable {P : Node → Prop} {net : Net}

/-- A DAG service that has everything. -/
def allNet : Net := fun _ _ => true

theorem get_serves {s : Shard} {i t : Nat} (hn : Serves net t P) (hs : In P s) : s.get net i t = s.get allNet i t ∧ t ≤ (s.get allNet i t).2 := by
  unfold Shard.get
  split
  · exact ⟨rfl, Nat.le_refl _⟩
  · exact ⟨rfl, Nat.le_refl _⟩
  · next l hx =>
    have hl := hs.link (List.mem_of_getElem? hx)
    rw [hn t (Nat.le_refl _) _ hl]
    simp only [allNet]
    refine ⟨trivial, ?_⟩
    split
    · exact Nat.le_refl _
    · simp only [if_true]
      split <;> simp
    · split <;> simp

theorem getValue_serves (hP : Complete P) (H : Hash) : ∀ (f : Nat) (s : Shard) (consumed : Nat) (key : Bytes) (t : Nat), Serves net t P → In P s →
    s.getValue H net f consumed key t = s.getValue H allNet f consumed key t ∧
    ∀ l s' t', s.getValue H allNet f consumed key t = (.ok (some l), s', t') → P l.target ∧ t ≤ t'
  | 0, s, _, _, t, hn, hs => ⟨rfl, by intro l s' t' h; cases h⟩
  | f + 1, s, consumed, key, t, hn, hs => by
    unfold Shard.getValue
    split
    · exact ⟨rfl, by intro l s' t' h; cases h⟩
    split
    · exact ⟨rfl, by intro l s' t' h; cases h⟩
    next idx consumed' _ _ =>
    simp only
    obtain ⟨hg, hm⟩ := get_serves (i := s.sliceIndex idx) hn hs
    rw [hg]
    cases hx : s.get allNet (s.sliceIndex idx) t with
    | mk r t1 =>
      rw [hx] at hm
      cases r with
      | error e => exact ⟨rfl, by intro l s' t' h; cases h⟩
      | ok p =>
        obtain ⟨c, s1⟩ := p
        obtain ⟨hc, h1⟩ := get_in hP hx hs
        dsimp only
        split
        · refine ⟨rfl, ?_⟩
          intro l s' t' h
          split at h
          · next hk =>
            simp only [Prod.mk.injEq, Except.ok.injEq] at h
            obtain ⟨h, _, rfl⟩ := h
            exact ⟨hc.val h, hm⟩
          · cases h
        · obtain ⟨g1, g2⟩ := getValue_serves hP H f c consumed' key t1 (fun u hu y hy => hn u (Nat.le_trans hm hu) y hy) hc
          rw [g1]
          refine ⟨rfl, ?_⟩
          intro l s' t' h
          cases hy : c.getValue H allNet f consumed' key t1 with
          | mk r q =>
            obtain ⟨c', t2⟩ := q
            rw [hy] at h
            simp only [Prod.mk.injEq] at h
            obtain ⟨rfl, _, rfl⟩ := h
            have := g2 _ _ _ hy
            exact ⟨this.1, Nat.le_trans hm this.2⟩

end Unixfs.Hamt

namespace Unixfs.Dir
open Unixfs.Spec Unixfs.Hamt

variable {env : Env} {W : Nat → Prop} {bo : Option Builder} {M : NMap} {nd : Node} {d : Dir} {st : List Node}

theorem DInv.more (h : DInv env W bo d st M) {st' : List Node} (hs : ∀ x ∈ st, x ∈ st') : DInv env W bo d st' M := by
  obtain ⟨h1, h2⟩ := h
  refine ⟨h1, ?_⟩
  cases d with
  | basic b => exact h2
  | hamt s =>
    obtain ⟨lg, hw, hp, b, cs, hi, hsh⟩ := h2
    exact ⟨lg, hw, hp, b, cs, ⟨RepS.mono hs _ _ hi.rep, hi.holds⟩, hsh⟩

theorem DInv.at_env (h : DInv env W bo d st M) {env' : Env} (hH : env'.H = env.H) : DInv env' W bo d st M := by
  rw [DInv.eq_def, hH]; exact h

/-- An enumeration fails only with a node of the store. -/
theorem enum_held {H : Hash} {lg : Nat} (hr : env.Real) (hp : HP H lg) {b : Builder} {cs : List Kid} {c : Hamt.Cfg} (hi : Inv H lg b cs c M) (k : Nat) (stop : List Link → Bool) {e : Err}
    (he : (env.enum k c.shard stop).ret = .err e) : (∃ x ∈ c.st, env.bad k x) ∨ env.cancel k := by
  obtain ⟨m, g, h, hf, hret, hgot, hc⟩ := hr k c.shard stop
  have hw := winv_steps h
  rcases hw.caused.gerr (by rw [hw.ctl.retErr e (by rw [hret, he])]; rfl) with h' | ⟨p, hp', hf'⟩
  · rcases hc h' with h1 | h1
    · rw [hret, he] at h1; cases h1
    · exact .inr h1
  · left
    by_contra hb
    exact repPart_ok hp (bad := env.bad k) (A := (· ∈ c.st)) (fun x hx hx' => hb ⟨x, hx, hx'⟩) (repPart_of hp hi.holds.wf hi.rep hp') hf'

/-- `Links` with a DAG service that has the nodes of the store. -/
theorem links_held (hr : env.Real) {c : Cfg} (hi : DInv env W bo c.dir c.st M) (hb : ∀ x ∈ c.st, ¬env.bad c.k x) (hc : ¬env.cancel c.k) :
    ∃ ls, (exec env .links c).1 = .list ls none ∧ Lists M ls := by
  obtain ⟨hne, hi⟩ := hi
  simp only [exec, links]
  cases hd : c.dir with
  | basic b =>
    rw [hd] at hi
    exact ⟨_, rfl, hi.1.lists⟩
  | hamt h =>
    rw [hd] at hi
    obtain ⟨lg, hlg, hp, b, cs, hi', hsh⟩ := hi
    have hsp := enum_spec hr hp hi' c.k (fun _ => false)
    have herr := fun e => enum_held (e := e) hr hp hi' c.k (fun _ => false)
    dsimp only at hsp herr ⊢
    generalize env.enum c.k h.shard (fun _ => false) = R at hsp herr ⊢
    obtain ⟨ret, got⟩ := R
    cases ret with
    | err e =>
      rcases herr e rfl with ⟨x, h1, h2⟩ | h1
      · exact absurd h2 (hb x h1)
      · exact absurd h1 hc
    | stopped => exact absurd (hsp.stopped rfl) (by simp)
    | ended => exact ⟨_, rfl, (hsp.ended rfl).resolve_left hc⟩

/-- `Find` does not notice what else the DAG service lacks. -/
theorem find_held {P : Node → Prop} (hP : Complete P) {c : Cfg} (hd : DIn P c.dir) (hn : Serves env.net c.t P) (env' : Env) (hH : env'.H = env.H) (hn' : env'.net = allNet) (k : Bytes) :
    (exec env (.find k) c).1 = (exec env' (.find k) c).1 := by
  simp only [exec, find]
  cases hc : c.dir with
  | basic b =>
    rw [hc] at hd
    dsimp only
    have : b.find env k c.t = b.find env' k c.t := by
      unfold Basic.find
      split
      · rfl
      · next l hl =>
        have : l ∈ b.links := List.mem_of_find?_eq_some hl
        rw [hn' , hn _ (Nat.le_refl _) _ (hd l this)]; rfl
    rw [this]
  | hamt h =>
    rw [hc] at hd
    dsimp only
    have : (h.find env k c.t).1 = (h.find env' k c.t).1 := by
      unfold HamtDir.find
      rw [hH, hn']
      unfold Shard.find
      obtain ⟨g1, g2⟩ := getValue_serves hP env.H (Shard.fuel env.H k) h.shard 0 k c.t hn hd
      rw [g1]
      generalize h.shard.getValue env.H allNet (Shard.fuel env.H k) 0 k c.t = R at g2
      obtain ⟨r, s, t'⟩ := R
      rcases r with e | _ | l
      · rfl
      · rfl
      · obtain ⟨g3, g4⟩ := g2 l s t' rfl
        dsimp only
        rw [hn _ g4 _ g3]; rfl
    generalize h.find env k c.t = R at this ⊢
    generalize h.find env' k c.t = R' at this ⊢
    obtain ⟨r, x, t⟩ := R
    obtain ⟨r', x', t'⟩ := R'
    dsimp only at this
    subst this
    cases r <;> rfl

end Unixfs.Dir
