import Verif.Dir.Hist
import Verif.Hamt.Mem
import Verif.Spec.DirGrow

/-!
# A sharded directory that does not shrink is not enumerated

The definitions in this file belong to proofs; they model no code.
-/

namespace Unixfs.Dir
open Unixfs.Hamt

theorem entrySize_eq (M : NMap) (name : Bytes) : (entrySize M name : Int) = oldSize M name := by
  rw [entrySize, oldSize]; cases M name <;> simp [linkSize]

/-- The size after an update. -/
theorem total_upd {M : NMap} {ls ls' : List Link} (h : Lists M ls) (name : Bytes) (v : Option LinkVal) (h' : Lists (M.upd name v) ls') :
    (total ls' : Int) = total ls - oldSize M name + (match v with | some v => linkSize name v.2 | none => 0) := by
  have h1 := lists_filter h name
  cases v with
  | none =>
    rw [total_perm (lists_unique h' h1), total_filter h]; simp
  | some v =>
    have h2 := lists_snoc h1 (name := name) (by simp [NMap.upd]) v
    rw [upd_upd] at h2
    rw [total_perm (lists_unique h' h2), total_append]
    push_cast
    rw [total_filter h]
    simp [total, entry, Link.name, Link.target, linkSize]

section
variable {env : Env} {lg : Nat}

/-- The decision without an enumeration. -/
theorem needs_quiet (hp : HP env.H lg) (hH : ∀ k, (env.H k).length = 8) {d : HamtDir} {st : List Node} {M : NMap} (hi : SInv env.H lg none d.shard st M)
    (hs : Sh (2 ^ lg) d.shard) (thr : Int) (name : Bytes) (nd : Option Node) (t k : Nat) (hq : thr ≠ 0 → 0 ≤ d.sizeChange + opSize M name nd)
    {r : Except Err Bool} {d' : HamtDir} {t' k' : Nat} (he : d.needsToSwitchToBasicDir env thr name nd t k = (r, d', t', k')) :
    SInv env.H lg none d'.shard st M ∧ Sh (2 ^ lg) d'.shard ∧ d'.sizeChange = d.sizeChange ∧ t' ≤ t + 64 / lg ∧ k' = k ∧ r ≠ .ok true := by
  rw [HamtDir.needsToSwitchToBasicDir.eq_def] at he
  by_cases h0 : thr = 0
  · rw [if_pos h0] at he
    simp only [Prod.mk.injEq] at he
    obtain ⟨rfl, rfl, rfl, rfl⟩ := he
    exact ⟨hi, hs, rfl, Nat.le_add_right _ _, rfl, by simp⟩
  · have hq := hq h0
    rw [if_neg h0] at he
    dsimp only at he
    generalize hF : d.shard.find env.H env.net name t = F at he
    obtain ⟨r1, s1, t1⟩ := F
    obtain ⟨h1, h2, h3⟩ := sfind hp env.net hi name t hF
    have hc := getValue_count (H := env.H) (net := env.net) (Shard.fuel env.H name) d.shard 0 name t hs
    obtain ⟨_, hk⟩ := get_local (H := env.H) (net := env.net) (net' := env.net) (Shard.fuel env.H name) d.shard 0 name t hs (fun _ _ _ => rfl)
    rw [Shard.find] at hF
    rw [hF] at hc hk
    rw [hH, lg_eq hp hs.size] at hc
    dsimp only at he hc hk
    have hcnt : t1 ≤ t + 64 / lg := hc
    have hdec : ∀ {op : Int}, 0 ≤ d.sizeChange + op → HamtDir.needsToSwitchToBasicDir.decide env thr k { d with shard := s1 } op t1 = (.ok false, { d with shard := s1 }, t1, k) := by
      intro op h
      rw [HamtDir.needsToSwitchToBasicDir.decide, if_pos (by dsimp only; omega)]
    rcases h3 with ⟨l, rfl, hM⟩ | ⟨rfl, hM⟩ | ⟨rfl, hf⟩
    · have hop : opSize M name nd = - linkSize name l.target + addSize name nd := by
        rw [opSize, oldSize, hM]; rfl
      rw [hop] at hq
      have he' : HamtDir.needsToSwitchToBasicDir.decide env thr k { d with shard := s1 } (- linkSize name l.target + addSize name nd) t1 = (r, d', t', k') := by cases nd <;> exact he
      rw [hdec hq] at he'
      simp only [Prod.mk.injEq] at he'
      obtain ⟨rfl, rfl, rfl, rfl⟩ := he'
      exact ⟨h1, hk.ok, rfl, hcnt, rfl, by simp⟩
    · have hop : opSize M name nd = addSize name nd := by
        rw [opSize, oldSize, hM]; simp
      rw [hop] at hq
      have he' : HamtDir.needsToSwitchToBasicDir.decide env thr k { d with shard := s1 } (addSize name nd) t1 = (r, d', t', k') := by cases nd <;> exact he
      rw [hdec hq] at he'
      simp only [Prod.mk.injEq] at he'
      obtain ⟨rfl, rfl, rfl, rfl⟩ := he'
      exact ⟨h1, hk.ok, rfl, hcnt, rfl, by simp⟩
    · simp only [Prod.mk.injEq] at he
      obtain ⟨rfl, rfl, rfl, rfl⟩ := he
      exact ⟨h1, hk.ok, rfl, hcnt, rfl, by simp⟩

/-- The shard and the fetches of an update. -/
theorem swap_quiet (hp : HP env.H lg) (hH : ∀ k, (env.H k).length = 8) {s : Shard} (hs : Sh (2 ^ lg) s) {name : Bytes} (hn : name ≠ []) (v : Option Link) (t : Nat)
    {r : Except Err (Option Link)} {s' : Shard} {t' : Nat} (he : Shard.swapValue env.H env.net (Shard.fuel env.H name) s 0 name v t = (r, s', t')) :
    Sh (2 ^ lg) s' ∧ t' ≤ t + 64 / lg := by
  have hc := swap_count (H := env.H) (net := env.net) (Shard.fuel env.H name) s 0 name v t hs hn
  obtain ⟨_, hk⟩ := swap_local (H := env.H) (net := env.net) (net' := env.net) (Shard.fuel env.H name) s 0 name v t hs hn (fun _ _ _ => rfl)
  rw [he] at hc hk
  rw [hH, lg_eq hp hs.size] at hc
  exact ⟨hk.ok, hc⟩

/-- 3 if the name is there. -/
def slack (M : NMap) (name : Bytes) : Int := if (M name).isSome then 3 else 0

theorem hadd_quiet (hp : HP env.H lg) (hH : ∀ k, (env.H k).length = 8) {d : HamtDir} {st : List Node} {M : NMap} (hi : SInv env.H lg none d.shard st M)
    (hs : Sh (2 ^ lg) d.shard) (name : Bytes) (hn : name ≠ []) (nd : Node) (t : Nat)
    {r : Except Err Unit} {d' : HamtDir} {t' : Nat} {st' : List Node} (he : d.addChild env name nd t st = (r, d', t', st')) :
    Sh (2 ^ lg) d'.shard ∧ t' ≤ t + 64 / lg ∧
    ((r = .ok () ∧ SInv env.H lg none d'.shard st' (M.upd name (some (nd.size, nd))) ∧ d.sizeChange - oldSize M name + linkSize name nd - slack M name ≤ d'.sizeChange) ∨
      ((∃ e, r = .error e) ∧ SInv env.H lg none d'.shard st' M ∧ d'.sizeChange = d.sizeChange)) := by
  rw [HamtDir.addChild, Shard.swap] at he
  by_cases hrf : env.ref st.length = true
  · rw [if_pos hrf] at he
    simp only [Prod.mk.injEq] at he
    obtain ⟨rfl, rfl, rfl, rfl⟩ := he
    exact ⟨hs, Nat.le_add_right _ _, .inr ⟨⟨_, rfl⟩, hi, rfl⟩⟩
  · rw [if_neg hrf] at he
    generalize hsw : Shard.swapValue env.H env.net (Shard.fuel env.H name) d.shard 0 name (some (makeLink (linkNamePrefix d.shard.size 0 ++ name) nd)) t = out at he
    obtain ⟨r1, s1, t1⟩ := out
    obtain ⟨k1, k2⟩ := swap_quiet hp hH hs hn _ t hsw
    obtain ⟨hm, h1⟩ := sset hp env.net hi name hn _ rfl t hsw
    rcases h1 with ⟨lo, rfl, h2, h3, h4⟩ | ⟨h4, h5⟩
    · simp only [Prod.mk.injEq] at he
      obtain ⟨rfl, rfl, rfl, rfl⟩ := he
      have hb := oldLink_bounds hp h2 h3
      refine ⟨k1, k2, .inl ⟨rfl, h4.add [nd], ?_⟩⟩
      show _ ≤ d.sizeChange - oldLink lo + _
      cases lo with
      | none =>
        have : M name = none := by rw [← h2]; rfl
        rw [slack, this, oldSize, this]; simp [oldLink]
      | some l =>
        have : (M name).isSome = true := by rw [← h2]; rfl
        rw [slack, if_pos this]; omega
    · rcases h5 with ⟨rfl, h6⟩ | ⟨rfl, h6⟩ <;>
      · simp only [Prod.mk.injEq] at he
        obtain ⟨rfl, rfl, rfl, rfl⟩ := he
        exact ⟨k1, k2, .inr ⟨⟨_, rfl⟩, h4.add [nd], rfl⟩⟩

theorem hremove_quiet (hp : HP env.H lg) (hH : ∀ k, (env.H k).length = 8) {d : HamtDir} {st : List Node} {M : NMap} (hi : SInv env.H lg none d.shard st M)
    (hs : Sh (2 ^ lg) d.shard) (name : Bytes) (hn : name ≠ []) (t : Nat) {r : Except Err Unit} {d' : HamtDir} {t' : Nat} (he : d.removeChild env name t = (r, d', t')) :
    Sh (2 ^ lg) d'.shard ∧ t' ≤ t + 64 / lg ∧
    ((r = .ok () ∧ SInv env.H lg none d'.shard st (M.upd name none) ∧ d.sizeChange - oldSize M name - slack M name ≤ d'.sizeChange) ∨
      ((∃ e, r = .error e) ∧ SInv env.H lg none d'.shard st M ∧ d'.sizeChange = d.sizeChange)) := by
  have hq : Sh (2 ^ lg) d'.shard ∧ t' ≤ t + 64 / lg := by
    rw [HamtDir.removeChild, Shard.take] at he
    generalize hsw : Shard.swapValue env.H env.net (Shard.fuel env.H name) d.shard 0 name none t = out at he
    obtain ⟨r1, s1, t1⟩ := out
    have := swap_quiet hp hH hs hn _ t hsw
    cases r1 <;>
    · simp only [Prod.mk.injEq] at he
      obtain ⟨rfl, rfl, rfl⟩ := he
      exact this
  refine ⟨hq.1, hq.2, ?_⟩
  obtain ⟨_, h⟩ := hremove hp hi name hn t he
  rcases h with ⟨v, rfl, hv, h1, _, h2⟩ | ⟨h1, h2, h3⟩
  · refine .inl ⟨rfl, h1, ?_⟩
    rw [slack, if_pos (by rw [hv]; rfl)]; omega
  · exact .inr ⟨by rcases h3 with ⟨rfl, _⟩ | ⟨rfl, _⟩ <;> exact ⟨_, rfl⟩, h1, h2⟩

/-- A sharded directory that holds `M` and was loaded when its size was `T0`; since then `rep` names have
been replaced or removed. -/
def Growing (env : Env) (lg : Nat) (T0 : Int) (rep : Nat) (c : Cfg) (M : NMap) : Prop :=
  ∃ h, c.dir = .hamt h ∧ SInv env.H lg none h.shard c.st M ∧ Sh (2 ^ lg) h.shard ∧ ∀ ls, Lists M ls → (total ls : Int) - T0 - 3 * rep ≤ h.sizeChange

/-- The counter of `replaced`. -/
def hits (M : NMap) (op : DOp) : Nat := match op.target with | some k => if (M k).isSome then 1 else 0 | none => 0

theorem grow_same {T0 : Int} {rep : Nat} {M : NMap} {x : Int} (n : Nat) (h : ∀ ls, Lists M ls → (total ls : Int) - T0 - 3 * rep ≤ x) :
    ∀ ls, Lists M ls → (total ls : Int) - T0 - 3 * ((rep + n : Nat) : Int) ≤ x := by
  intro ls hl
  have := h ls hl
  push_cast
  omega

theorem grow_step (hp : HP env.H lg) (hH : ∀ k, (env.H k).length = 8) {T0 : Int} {rep : Nat} {c : Cfg} {M : NMap} (hg : Growing env lg T0 rep c M) {op : DOp}
    (ho : op.Single) (hne : op.target ≠ some []) (hq : op.target ≠ none → ∀ ls, Lists M ls → T0 + 3 * rep ≤ total ls + sizeDelta M op) :
    Growing env lg T0 (rep + hits M op) (exec env op c).2 (mapAfter env M [op] c) ∧ (exec env op c).2.k = c.k ∧ (exec env op c).2.t ≤ c.t + (2 * (64 / lg) + 1) := by
  obtain ⟨h, hd, hi, hs, hsz⟩ := hg
  cases op with
  | links => exact ho.elim
  | forEach cb => exact ho.elim
  | reload => exact ho.elim
  | setThreshold n => exact ⟨⟨h, hd, hi, hs, grow_same _ hsz⟩, rfl, by show c.t ≤ _; omega⟩
  | setCidBuilder b =>
    obtain ⟨bd, cs, hi, _⟩ := hi
    obtain ⟨b', cs', M', h1, _, _, h2⟩ := exec_spec hp env.net (fun _ => false) hi (.setCidBuilder b) (by simp [Op.target])
    simp only [Hamt.exec] at h1 h2
    cases h2 with
    | setCidBuilder =>
      rw [exec, setCidBuilder, hd]
      exact ⟨⟨{ h with shard := h.shard.setCidBuilder b }, rfl, SInv.of h1 (by intro b0 h; cases h), sh_builder hs b, grow_same _ hsz⟩, rfl, by show c.t ≤ _; omega⟩
  | getNode =>
    rw [exec, getNode, hd]
    dsimp only
    generalize hF : h.shard.toNode env.ref c.st = F
    obtain ⟨r, st'⟩ := F
    obtain ⟨h1, _, _⟩ := snode hp env.ref hi hF
    have hm : mapAfter env M [.getNode] c = M := rfl
    rw [hm]
    cases r <;> exact ⟨⟨h, rfl, h1, hs, grow_same _ hsz⟩, rfl, by show c.t ≤ _; omega⟩
  | find name =>
    have hm : mapAfter env M [.find name] c = M := rfl
    rw [hm, exec, find, hd]
    dsimp only
    rw [HamtDir.find]
    generalize hF : h.shard.find env.H env.net name c.t = F
    obtain ⟨r1, s1, t1⟩ := F
    obtain ⟨h1, h2, h3⟩ := sfind hp env.net hi name c.t hF
    have hc := getValue_count (H := env.H) (net := env.net) (Shard.fuel env.H name) h.shard 0 name c.t hs
    obtain ⟨_, hk⟩ := get_local (H := env.H) (net := env.net) (net' := env.net) (Shard.fuel env.H name) h.shard 0 name c.t hs (fun _ _ _ => rfl)
    rw [Shard.find] at hF
    rw [hF] at hc hk
    rw [hH, lg_eq hp hs.size] at hc
    have hcnt : t1 ≤ c.t + 64 / lg := hc
    rcases h3 with ⟨l, rfl, hM⟩ | ⟨rfl, hM⟩ | ⟨rfl, hf⟩
    · dsimp only
      by_cases hr : env.net t1 l.target = true
      · rw [if_pos hr]; exact ⟨⟨_, rfl, h1, hk.ok, grow_same _ hsz⟩, rfl, by dsimp only; omega⟩
      · rw [if_neg hr]; exact ⟨⟨_, rfl, h1, hk.ok, grow_same _ hsz⟩, rfl, by dsimp only; omega⟩
    · exact ⟨⟨_, rfl, h1, hk.ok, grow_same _ hsz⟩, rfl, by dsimp only; omega⟩
    · exact ⟨⟨_, rfl, h1, hk.ok, grow_same _ hsz⟩, rfl, by dsimp only; omega⟩
  | add name nd =>
    have hn : name ≠ [] := fun h => hne (by rw [h]; rfl)
    obtain ⟨ls0, hl0⟩ := hi.finite
    have hq0 : 0 ≤ h.sizeChange + opSize M name (some nd) := by
      have h1 := hq (by simp [DOp.target]) ls0 hl0
      have h2 := hsz ls0 hl0
      rw [sizeDelta, entrySize_eq] at h1
      rw [opSize, addSize, linkSize]
      push_cast at h1
      omega
    have hslack : slack M name = 3 * (hits M (.add name nd) : Int) := by
      rw [slack, hits, DOp.target]; dsimp only; split <;> simp
    generalize hR : exec env (.add name nd) c = R
    have hmap : mapAfter env M [.add name nd] c = if R.1 = .done then M.upd name (some (nd.size, nd)) else M := by
      funext k
      rw [mapAfter, results, results, hR]
      obtain ⟨r, c'⟩ := R
      cases r with
      | done =>
        simp only [List.zip_cons_cons, List.zip_nil_left, lastWrite, if_true, NMap.upd]
        by_cases hk : name = k
        · rw [if_pos hk, if_pos hk.symm]
        · rw [if_neg hk, if_neg (Ne.symm hk)]
      | _ => simp [lastWrite]
    rw [hmap]
    rw [exec, addChild, hd] at hR
    dsimp only at hR
    generalize hN : h.needsToSwitchToBasicDir env c.thr name (some nd) c.t c.k = N at hR
    obtain ⟨r1, h', t1, k1⟩ := N
    obtain ⟨n1, n2, n3, n4, rfl, n6⟩ := needs_quiet hp hH hi hs c.thr name (some nd) c.t c.k (fun _ => hq0) hN
    cases r1 with
    | error e =>
      dsimp only at hR
      rw [← hR]
      exact ⟨⟨h', rfl, by simpa using n1, n2, by rw [n3, if_neg (by simp)]; exact grow_same _ hsz⟩, rfl, by dsimp only; omega⟩
    | ok a =>
      cases a with
      | true => exact absurd rfl n6
      | false =>
        dsimp only at hR
        generalize hA : h'.addChild env name nd t1 c.st = A at hR
        obtain ⟨r2, h2, t2, st2⟩ := A
        obtain ⟨a1, a2, a3⟩ := hadd_quiet hp hH n1 n2 name hn nd t1 hA
        rcases a3 with ⟨rfl, a3, a4⟩ | ⟨⟨e, rfl⟩, a3, a4⟩
        · dsimp only at hR
          rw [← hR]
          refine ⟨⟨h2, rfl, by simpa using a3, a1, ?_⟩, rfl, by dsimp only; omega⟩
          rw [if_pos rfl]
          intro ls hl
          have e1 := total_upd hl0 name (some (nd.size, nd)) hl
          have e2 := hsz ls0 hl0
          dsimp only at e1
          rw [n3] at a4
          push_cast
          omega
        · dsimp only at hR
          rw [← hR]
          exact ⟨⟨h2, rfl, by simpa using a3, a1, by rw [a4, n3, if_neg (by simp)]; exact grow_same _ hsz⟩, rfl, by dsimp only; omega⟩
  | remove name =>
    have hn : name ≠ [] := fun h => hne (by rw [h]; rfl)
    obtain ⟨ls0, hl0⟩ := hi.finite
    have hq0 : 0 ≤ h.sizeChange + opSize M name none := by
      have h1 := hq (by simp [DOp.target]) ls0 hl0
      have h2 := hsz ls0 hl0
      rw [sizeDelta, entrySize_eq] at h1
      rw [opSize, addSize]
      omega
    have hslack : slack M name = 3 * (hits M (.remove name) : Int) := by
      rw [slack, hits, DOp.target]; dsimp only; split <;> simp
    generalize hR : exec env (.remove name) c = R
    have hmap : mapAfter env M [.remove name] c = if R.1 = .done then M.upd name none else M := by
      funext k
      rw [mapAfter, results, results, hR]
      obtain ⟨r, c'⟩ := R
      cases r with
      | done =>
        simp only [List.zip_cons_cons, List.zip_nil_left, lastWrite, if_true, NMap.upd]
        by_cases hk : name = k
        · rw [if_pos hk, if_pos hk.symm]
        · rw [if_neg hk, if_neg (Ne.symm hk)]
      | _ => simp [lastWrite]
    rw [hmap]
    rw [exec, removeChild, hd] at hR
    dsimp only at hR
    generalize hN : h.needsToSwitchToBasicDir env c.thr name none c.t c.k = N at hR
    obtain ⟨r1, h', t1, k1⟩ := N
    obtain ⟨n1, n2, n3, n4, rfl, n6⟩ := needs_quiet hp hH hi hs c.thr name none c.t c.k (fun _ => hq0) hN
    cases r1 with
    | error e =>
      dsimp only at hR
      rw [← hR]
      exact ⟨⟨h', rfl, by simpa using n1, n2, by rw [n3, if_neg (by simp)]; exact grow_same _ hsz⟩, rfl, by dsimp only; omega⟩
    | ok a =>
      cases a with
      | true => exact absurd rfl n6
      | false =>
        dsimp only at hR
        generalize hA : h'.removeChild env name t1 = A at hR
        obtain ⟨r2, h2, t2⟩ := A
        obtain ⟨a1, a2, a3⟩ := hremove_quiet hp hH n1 n2 name hn t1 hA
        rcases a3 with ⟨rfl, a3, a4⟩ | ⟨⟨e, rfl⟩, a3, a4⟩
        · dsimp only at hR
          rw [← hR]
          refine ⟨⟨h2, rfl, by simpa using a3, a1, ?_⟩, rfl, by dsimp only; omega⟩
          rw [if_pos rfl]
          intro ls hl
          have e1 := total_upd hl0 name none hl
          have e2 := hsz ls0 hl0
          dsimp only at e1
          rw [n3] at a4
          push_cast
          omega
        · dsimp only at hR
          rw [← hR]
          exact ⟨⟨h2, rfl, by simpa using a3, a1, by rw [a4, n3, if_neg (by simp)]; exact grow_same _ hsz⟩, rfl, by dsimp only; omega⟩

/-- One call, then the others. -/
theorem mapAfter_cons (env : Env) (M : NMap) (op : DOp) (ops : List DOp) (c : Cfg) :
    mapAfter env M (op :: ops) c = mapAfter env (mapAfter env M [op] c) ops (exec env op c).2 := by
  funext k
  rw [mapAfter, mapAfter, mapAfter, results, results, results]
  generalize (exec env op c).1 = r
  cases op <;> cases r <;> simp [lastWrite]

theorem grow_run (hp : HP env.H lg) (hH : ∀ k, (env.H k).length = 8) {T0 : Int} : ∀ (ops1 : List DOp) (op : DOp) (ops2 : List DOp) (rep : Nat) (c : Cfg) (M : NMap),
    Growing env lg T0 rep c M → (∀ o ∈ ops1 ++ op :: ops2, o.Single) → NoEmptyName (ops1 ++ op :: ops2) →
    (∀ a o b, ops1 ++ op :: ops2 = a ++ o :: b → o.target ≠ none → ∀ ls, Lists (mapAfter env M a c) ls →
      T0 + 3 * ((rep + replaced env M a c : Nat) : Int) ≤ total ls + sizeDelta (mapAfter env M a c) o) →
    (exec env op (execAll env ops1 c)).2.k = (execAll env ops1 c).k ∧ (execAll env ops1 c).k = c.k ∧
      (exec env op (execAll env ops1 c)).2.t ≤ (execAll env ops1 c).t + (2 * (64 / lg) + 1) ∧ ∃ h, (exec env op (execAll env ops1 c)).2.dir = .hamt h
  | [], op, ops2, rep, c, M, hg, ho, hn, hq => by
    obtain ⟨h1, h2, h3⟩ := grow_step hp hH hg (ho op (by simp)) (hn op (by simp)) (fun ht ls hl => by simpa [replaced, show mapAfter env M [] c = M from rfl] using hq [] op ops2 rfl ht ls hl)
    exact ⟨h2, rfl, h3, by obtain ⟨h, hh, _⟩ := h1; exact ⟨h, hh⟩⟩
  | o1 :: ops1, op, ops2, rep, c, M, hg, ho, hn, hq => by
    obtain ⟨h1, h2, h3⟩ := grow_step hp hH hg (ho o1 (by simp)) (hn o1 (by simp)) (fun ht ls hl => by simpa [replaced, show mapAfter env M [] c = M from rfl] using hq [] o1 (ops1 ++ op :: ops2) rfl ht ls hl)
    obtain ⟨g1, g2, g3, g4⟩ := grow_run hp hH ops1 op ops2 (rep + hits M o1) (exec env o1 c).2 (mapAfter env M [o1] c) h1 (fun o h => ho o (by simp_all)) (fun o h => hn o (by simp_all)) (by
      intro a o b hab ht ls hl
      have := hq (o1 :: a) o b (by rw [List.cons_append, List.cons_append, hab]) ht ls (by rw [mapAfter_cons]; exact hl)
      rw [mapAfter_cons, replaced] at this
      rw [Nat.add_assoc]
      exact this)
    exact ⟨g1, g2.trans h2, g3, g4⟩

/-- After loading, every shard has the width of the root. -/
theorem reload_growing {c0 c : Cfg} {M : NMap} (hi : DInv env (· = lg) none c0.dir c0.st M) (h : exec env .reload c0 = (.done, c)) {h0 : HamtDir} (hd : c.dir = .hamt h0)
    {ls0 : List Link} (hl : Lists M ls0) : Growing env lg (total ls0) 0 c M := by
  have hsc := reload_sc h hd
  obtain ⟨hne, hi⟩ := hi
  rw [exec, getNode] at h
  cases hd0 : c0.dir with
  | basic b =>
    rw [hd0] at hi h
    dsimp only at h
    rw [fromNode_basic hi.1] at h
    simp only [Prod.mk.injEq, true_and] at h
    rw [← h] at hd
    cases hd
  | hamt h1 =>
    rw [hd0] at hi h
    obtain ⟨_, hlg, hp, hi⟩ := hi
    subst hlg
    dsimp only at h
    generalize hF : h1.shard.toNode env.ref c0.st = F at h
    obtain ⟨r, st'⟩ := F
    obtain ⟨_, _, h3⟩ := snode hp env.ref hi hF
    rcases h3 with ⟨nd, s', rfl, hld, hi'⟩ | ⟨rfl, hf⟩
    · dsimp only at h
      rw [fromNode_hamt hld] at h
      simp only [Prod.mk.injEq, true_and] at h
      rw [← h] at hd ⊢
      cases hd
      obtain ⟨b, cs, hi2, _⟩ := hi
      obtain ⟨_, hn⟩ := toNode_sim hp env.ref _ h1.shard b cs hi2.rep ⟨_, _, _, hi2.holds.wf, Nat.lt_succ_self _⟩ c0.st
      rw [hF] at hn
      simp only at hn
      rcases hn with ⟨hn, _⟩ | ⟨hn, _⟩
      · cases hn
      · simp only [Except.ok.injEq] at hn
        rw [hn] at hld
        refine ⟨_, rfl, hi', sh_load (uni_toN hp _ _ _ b cs hi2.holds.wf) hld, fun ls hls => ?_⟩
        rw [total_perm (lists_unique hls hl)]
        simp
    · cases h

/-- What one call does to the entries. -/
theorem mapAfter_one (env : Env) (M : NMap) (op : DOp) (c : Cfg) : mapAfter env M [op] c = M ∨
    (∃ name nd, op = .add name nd ∧ mapAfter env M [op] c = M.upd name (some (nd.size, nd))) ∨ ∃ name, op = .remove name ∧ mapAfter env M [op] c = M.upd name none := by
  have key : ∀ k, mapAfter env M [op] c k = lastWrite k (M k) [(op, (exec env op c).1)] := fun k => rfl
  generalize (exec env op c).1 = r at key
  by_cases h1 : ∃ name nd, op = .add name nd ∧ r = .done
  · obtain ⟨name, nd, rfl, rfl⟩ := h1
    refine .inr (.inl ⟨name, nd, rfl, funext fun k => ?_⟩)
    rw [key, lastWrite, NMap.upd]
    by_cases hk : name = k
    · simp [hk, lastWrite]
    · simp [hk, Ne.symm hk, lastWrite]
  · by_cases h2 : ∃ name, op = .remove name ∧ r = .done
    · obtain ⟨name, rfl, rfl⟩ := h2
      refine .inr (.inr ⟨name, rfl, funext fun k => ?_⟩)
      rw [key, lastWrite, NMap.upd]
      by_cases hk : name = k
      · simp [hk, lastWrite]
      · simp [hk, Ne.symm hk, lastWrite]
    · refine .inl (funext fun k => ?_)
      rw [key]
      cases op <;> cases r <;> simp_all [lastWrite]

/-- New names only. -/
theorem new_names_grow (env : Env) : ∀ (a : List DOp) (c : Cfg) (M : NMap) (ls0 : List Link), Lists M ls0 →
    (∀ x o y, a = x ++ o :: y → ∀ name, o.target = some name → (∃ nd, o = .add name nd) ∧ mapAfter env M x c name = none) →
    replaced env M a c = 0 ∧ ∀ ls, Lists (mapAfter env M a c) ls → total ls0 ≤ total ls
  | [], c, M, ls0, hl, _ => ⟨rfl, fun ls h => le_of_eq (total_perm (lists_unique hl h))⟩
  | o :: a, c, M, ls0, hl, hc => by
    have hM : ∀ name, o.target = some name → (∃ nd, o = .add name nd) ∧ M name = none := fun name h => hc [] o a rfl name h
    have hrec : ∀ ls1, Lists (mapAfter env M [o] c) ls1 → replaced env (mapAfter env M [o] c) a (exec env o c).2 = 0 ∧
        ∀ ls, Lists (mapAfter env M (o :: a) c) ls → total ls1 ≤ total ls := by
      intro ls1 h1
      have := new_names_grow env a (exec env o c).2 (mapAfter env M [o] c) ls1 h1 (fun x o' y h name hn => by
        have := hc (o :: x) o' y (by rw [h]; rfl) name hn
        rw [mapAfter_cons] at this
        exact this)
      exact ⟨this.1, fun ls hls => this.2 ls (by rw [← mapAfter_cons]; exact hls)⟩
    have hrep : replaced env M (o :: a) c = replaced env (mapAfter env M [o] c) a (exec env o c).2 := by
      rw [replaced]
      cases ht : o.target with
      | none => simp
      | some k => simp [(hM k ht).2]
    rw [hrep]
    rcases mapAfter_one env M o c with h | ⟨name, nd, rfl, h⟩ | ⟨name, rfl, h⟩
    · exact hrec ls0 (by rw [h]; exact hl)
    · have h2 := (hM name rfl).2
      have h3 := lists_snoc hl h2 (nd.size, nd)
      obtain ⟨g1, g2⟩ := hrec _ (by rw [h]; exact h3)
      refine ⟨g1, fun ls hls => le_trans ?_ (g2 ls hls)⟩
      rw [total_append]
      omega
    · obtain ⟨⟨nd, h4⟩, _⟩ := hM name rfl
      cases h4

end

/-- The call finds the name and the estimate of the change is negative. -/
def shrinks (env : Env) (c : Cfg) (name : Bytes) (nd : Node) : Bool :=
  match c.dir with
  | .basic _ => false
  | .hamt h =>
    match h.shard.find env.H env.net name c.t with
    | (.ok (some l), _, _) => decide (c.thr ≠ 0) && decide (h.sizeChange + (- linkSize name l.target + linkSize name nd) < 0)
    | _ => false

/-- Then the directory is enumerated, whatever comes of it. -/
theorem add_enumerates {env : Env} {c : Cfg} {name : Bytes} {nd : Node} (h : shrinks env c name nd = true) : (exec env (.add name nd) c).2.k = c.k + 1 := by
  rw [shrinks] at h
  cases hd : c.dir with
  | basic b => rw [hd] at h; cases h
  | hamt h0 =>
    rw [hd] at h
    dsimp only at h
    have hN : (h0.needsToSwitchToBasicDir env c.thr name (some nd) c.t c.k).2.2.2 = c.k + 1 := by
      rw [HamtDir.needsToSwitchToBasicDir.eq_def]
      generalize h0.shard.find env.H env.net name c.t = F at h
      obtain ⟨r, s, t⟩ := F
      cases r with
      | error e => cases h
      | ok o =>
        cases o with
        | none => cases h
        | some l =>
          simp only [Bool.and_eq_true, decide_eq_true_eq] at h
          rw [if_neg h.1]
          dsimp only
          rw [HamtDir.needsToSwitchToBasicDir.decide, if_neg (by dsimp only; omega), HamtDir.sizeBelowThreshold, if_neg h.1]
          dsimp only
          split <;> rfl
    rw [exec, addChild, hd]
    dsimp only
    generalize h0.needsToSwitchToBasicDir env c.thr name (some nd) c.t c.k = N at hN
    obtain ⟨r1, h', t1, k1⟩ := N
    dsimp only at hN
    subst hN
    cases r1 with
    | error e => rfl
    | ok a =>
      cases a with
      | false =>
        dsimp only
        generalize h'.addChild env name nd t1 c.st = A
        obtain ⟨r2, h2, t2, st2⟩ := A
        cases r2 <;> rfl
      | true =>
        dsimp only
        generalize h'.switchToBasic env t1 = A
        obtain ⟨r2, h2, t2⟩ := A
        cases r2 with
        | error e => rfl
        | ok b =>
          dsimp only
          generalize b.addChild name nd = R
          obtain ⟨r3, b'⟩ := R
          cases r3 <;> rfl

end Unixfs.Dir
