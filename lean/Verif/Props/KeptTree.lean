import Verif.Spec.KeptTree
import Verif.Dir.Held
import Verif.Mod.Names
import Verif.Props.Tree
import Verif.Props.Kept
import Verif.Props.Crash

/-!
# Trees kept in a store (C109)

`KeptDir H S M nd`, `KeptTree H S tr nd` (`Verif/Spec/KeptTree`): the node was made with this library, in any
number of sessions, in which `S` was stored.
-/

namespace Unixfs.Props
open Unixfs.Hamt hiding exec execAll results NoEmptyName lastWrite Cfg
open Unixfs.Dir Unixfs.File Unixfs.Spec
open Unixfs.Import hiding Cfg

variable {H : Hash} {net : Net} {oth : OtherResolve} {S : List Node} {tr : Tree} {nd : Node} {M : NMap} {t : Nat}

theorem kept_names {c : Bytes} {grow : Bool} (h : Kept S nd c grow) : NoNames nd.links := by
  induction h with
  | empty => intro l hl; cases hl
  | @balanced _ _ _ _ _ _ _ root _ hf h2 _ h =>
    have := C56_balanced_tsize hf h2 h
    generalize root.node = x at this
    cases x with
    | proto d ls b => exact linksTrueL_name this
    | _ => intro l hl; cases hl
  | @trickle _ _ _ _ _ _ _ x _ hf h1 _ h =>
    have := C56_trickle_tsize hf h1 h
    cases x with
    | proto d ls b => exact linksTrueL_name this
    | _ => intro l hl; cases hl
  | append _ _ _ _ hr ih => exact Trickle.append_names hr ih
  | @session S root c grow env ops n _ _ _ _ hlast ih =>
    unfold Spec.results at hlast
    split at hlast
    · next dm hd =>
      have := Mod.run_stable (Mod.names_stable (env := env)) (ops ++ [.getNode]) (dm := dm) (by rw [(new_stored hd).1]; exact ih)
      exact this _ (List.mem_of_getLast? hlast) n rfl
    · simp at hlast
  | more _ _ ih => exact ih

/-- What is true of kept directories. -/
theorem keptDir_facts (h : KeptDir H S M nd) :
    (∃ d, newDirectoryFromNode nd = .ok d ∧ ∀ env : Env, env.H = H → DInv env (fun _ => True) none d S M) ∧ ∀ x, Reach nd x → x ∈ S := by
  induction h with
  | empty =>
    refine ⟨⟨newDirectory, new_loaded, fun env _ => ⟨mapOf_empty (ls := []) (by simp), (loaded_inv (d := .ofNode folderPBData [] .v0) fresh_loaded (by simp)).1, by simp [Plain]⟩⟩, fun x hx => ?_⟩
    cases hx with
    | refl => simp
    | step hl _ => cases hl
  | @session S M nd d env lg ops thr nd' c _ hv hr hH hn hin hd hg ih =>
    obtain ⟨⟨d0, h0, hi⟩, hb⟩ := ih
    rw [hd] at h0; cases h0
    obtain ⟨M', h1, h2⟩ := execAll_dspec (W := fun _ => True) (bo := none) hr (lg0 := lg) trivial hv.hp hv.width (by simp) ops (c := { start d thr with st := S })
      (hi env hH) hn (by simp)
    have h2 := h2.after
    have hcomp : Complete (fun x => ∀ y, Reach x y → y ∈ S) := fun x y hx hr z hz => hx z (hr.trans hz)
    have hs : DSafe (fun x => ∀ y, Reach x y → y ∈ S) S (execAll env ops { start d thr with st := S }) := by
      refine execAll_safe hcomp env ops _ ⟨⟨[], rfl, ChildrenFirst.nil⟩, load_dir_in hd (fun l hl => .inr (fun y hy => hb y (.step hl hy)))⟩ ?_
      intro name x hx
      exact hin name x hx
    have hgn := getNode_safe hcomp env hs
    have hsub : ∀ x ∈ S, x ∈ c.st := by
      intro x hx
      obtain ⟨st1, he, _⟩ := hgn.1.first
      have : c.st = (getNode env (execAll env ops { start d thr with st := S })).2.st := by
        simp only [exec] at hg
        split at hg <;> cases hg
        next h => rw [h]
      rw [this, he]; simp [hx]
    generalize execAll env ops { start d thr with st := S } = c0 at h1 hg hgn
    obtain ⟨d', h3, h4⟩ := node_opens (nd := nd') h1 (by rw [hg])
    rw [hg] at h4
    dsimp only at h4
    refine ⟨⟨d', h3, fun env' hH' => ?_⟩, fun x hx => ?_⟩
    · rw [← h2]
      exact (h4.at_env (hH'.trans hH.symm)).more (by simp +contextual)
    · cases hx with
      | refl => simp
      | step hl hr =>
        simp only [exec] at hg
        split at hg
        · next he =>
          cases hg
          rw [he] at hgn
          have := hgn.1.first.complete hcomp _ _ (hgn.2 _ rfl _ hl) hr
          rcases this.mem with h | h
          · exact List.mem_cons_of_mem _ h
          · exact List.mem_cons_of_mem _ (hsub _ (h _ (.refl _)))
        · cases hg
  | more _ hs ih =>
    obtain ⟨⟨d, h1, h2⟩, h3⟩ := ih
    exact ⟨⟨d, h1, fun env hH => (h2 env hH).more hs⟩, fun x hx => hs x (h3 x hx)⟩

/-- C109: every block of the tree is in the store. -/
theorem C109_blocks (h : KeptTree H S tr nd) : ∀ x, Reach nd x → x ∈ S := by
  cases h with
  | file h => exact (kept_facts h).2.2.2.2
  | symlink hl h hm =>
    intro x hx
    cases hx with
    | refl => exact hm
    | step hl _ => cases hl
  | dir h _ _ => exact (keptDir_facts h).2

/-- One hop in a directory, with a DAG service that has everything. -/
theorem resolve_held {env : Env} {W : Nat → Prop} {bo : Option Builder} {d : Dir} {st : List Node} (hd : newDirectoryFromNode nd = .ok d) (hi : DInv env W bo d st M) {k : Bytes} {rest : List Bytes} :
    ∃ t', t ≤ t' ∧ match M k with
      | some v => ∃ l, resolveUnixfsOnce env.H allNet oth nd (k :: rest) t = (.ok (some l, rest), t') ∧ linkVal l = v
      | none => resolveUnixfsOnce env.H allNet oth nd (k :: rest) t = (.error .notExist, t') := by
  obtain ⟨hne, hi⟩ := hi
  unfold newDirectoryFromNode at hd
  split at hd
  · next data ls b =>
    split at hd
    · cases hd
    next fs hfs =>
    split at hd
    · next ht =>
      cases hd
      refine ⟨t, Nat.le_refl _, ?_⟩
      rw [resolveUnixfsOnce, hfs]
      dsimp only
      rw [if_neg (by rw [ht]; decide), resolveLink]
      have hb := bget hi.1 k
      rw [Basic.getNodeLink, Basic.ofNode, computeEstimatedSize_links] at hb
      rw [hb]
      cases hm : M k with
      | none => rfl
      | some v => exact ⟨_, rfl, rfl⟩
    · split at hd
      · next ht =>
        split at hd
        · cases hd
        next s hl =>
        cases hd
        obtain ⟨lg, _, hp, hi⟩ := hi
        rw [resolveUnixfsOnce, hfs]
        dsimp only
        rw [if_pos ht, hl]
        dsimp only
        generalize hR : s.find env.H allNet k t = R
        obtain ⟨r, s'', t'⟩ := R
        obtain ⟨_, h2, h3⟩ := sfind hp allNet hi k t hR
        refine ⟨t', h2, ?_⟩
        rcases h3 with ⟨l, rfl, hM⟩ | ⟨rfl, hM⟩ | ⟨rfl, u, x, _, _, hf⟩
        · rw [hM]; exact ⟨l, rfl, rfl⟩
        · rw [hM]
        · cases hf
      · cases hd
  · cases hd

/-- One hop fetches only nodes below the node. -/
theorem resolve_serves (hn : Serves net t (Reach nd)) (names : List Bytes) : resolveUnixfsOnce H net oth nd names t = resolveUnixfsOnce H allNet oth nd names t := by
  unfold resolveUnixfsOnce
  split
  · next d ls b =>
    split
    · rfl
    · split
      · split
        · rfl
        · next s hl =>
          split
          · rfl
          · next name rest =>
            unfold Shard.find
            rw [(getValue_serves (reach_complete _) H (Shard.fuel H name) s 0 name t hn (load_in hl (fun l hl => .step hl (.refl _)))).1]
      · rfl
  · rfl

theorem serves_mono {t' : Nat} {P Q : Node → Prop} (h : Serves net t P) (ht : t ≤ t') (hq : ∀ x, Q x → P x) : Serves net t' Q :=
  fun u hu y hy => h u (Nat.le_trans ht hu) y (hq y hy)

/-- C109: with a DAG service that has the blocks of the store, and perhaps no others, the path is resolved if there
is something at it, to a node that stands for what is there, and is reported not to exist otherwise. -/
theorem C109_resolve (h : KeptTree H S tr nd) (names : List Bytes) (hne : [] ∉ names) {fuel : Nat} (hfu : names.length ≤ fuel) (t : Nat) (hn : Serves net t (· ∈ S)) :
    match tr.at names with
    | some tr' => ∃ nd', (resolvePath H net oth fuel nd names t).1 = .ok nd' ∧ KeptTree H S tr' nd'
    | none => (resolvePath H net oth fuel nd names t).1 = .error .notExist := by
  induction names generalizing tr nd fuel t with
  | nil => rw [Tree.at]; exact ⟨nd, by rw [resolvePath], h⟩
  | cons k rest ih =>
    obtain ⟨fuel, rfl⟩ : ∃ f, fuel = f + 1 := ⟨fuel - 1, by simp at hfu; omega⟩
    rw [List.mem_cons, not_or] at hne
    have hk : k ≠ [] := fun h => hne.1 h.symm
    have leaf : resolveUnixfsOnce H net oth nd (k :: rest) t = (.error .notExist, t) → (resolvePath H net oth (fuel + 1) nd (k :: rest) t).1 = .error .notExist := by
      intro h1
      rw [resolvePath, h1]
      simp
    cases h with
    | file h =>
      refine leaf (resolve_leaf ?_ ?_ hk rest)
      · rintro d ls b rfl
        obtain ⟨m, hm, hf, _⟩ := (kept_facts h).1
        refine ⟨fun m' hm' => ?_, kept_names h⟩
        rw [hm] at hm'; cases hm'
        rcases hf with h | h <;> rw [h] <;> decide
      · rintro d rfl; exact (kept_facts h).1.elim
    | symlink hl h hm =>
      refine leaf (resolve_leaf ?_ (by simp) hk rest)
      rintro d ls b hb
      cases hb
      exact ⟨fun m hm => by rw [symlink_unmarshal hl h] at hm; cases hm; simp [TSymlink, THAMTShard], by simp⟩
    | @dir M _ es hd hes hsub =>
      obtain ⟨⟨d, h1, h2⟩, h3⟩ := keptDir_facts hd
      obtain ⟨env, _, _, hH, _⟩ := exists_env H allNet (fun _ => false) (fun _ _ => False) 8
      obtain ⟨t', ht, hR⟩ := resolve_held (oth := oth) (t := t) (k := k) (rest := rest) h1 (h2 env hH)
      rw [hH] at hR
      rw [show resolvePath H net oth (fuel + 1) nd (k :: rest) t = _ from resolvePath.eq_3 _ _ _ _ _ _ _ (by simp),
        resolve_serves (serves_mono hn (Nat.le_refl _) h3)]
      have he := hes k
      rw [Tree.at]
      cases hM : M k with
      | none =>
        rw [hM] at hR he
        dsimp only at hR
        rw [hR]
        cases hl : es.lookup k with
        | none => rfl
        | some x => rw [hl] at he; cases he
      | some v =>
        rw [hM] at hR he
        obtain ⟨l, hR, rfl⟩ := hR
        rw [hR]
        obtain ⟨tr', htr⟩ := Option.isSome_iff_exists.mp he
        rw [htr]
        dsimp only
        have hp : KeptTree H S tr' l.target := hsub k tr' _ htr hM
        rw [hn t' ht _ (C109_blocks hp _ (.refl _)), if_pos rfl]
        exact ih hp hne.2 (by simpa using hfu) (t' + 1) (serves_mono hn (by omega) (fun _ h => h))

/-- C109: what `NewUnixfsFile` makes of the node, with a DAG service that has the blocks of the store, and perhaps
no others. A file reads as its content; a symbolic link has its target; in a directory, `Find` gives for every
entry of the tree a node that stands for it, and nothing else, and `Links`, unless it is cancelled, lists the names
of the entries, each once, with such nodes. -/
theorem C109_open (h : KeptTree H S tr nd) (hn : Serves net t (· ∈ S)) :
    match tr with
    | .file c => ∀ rops, GoodWriters rops →
        ∃ dr, newUnixfsFile net t nd = .ok (.file dr) ∧ (FileNode.file dr).size = some (c.length : Int) ∧ ∃ p, FlatRun c 0 rops (dr.run net rops).1 p
    | .symlink target => newUnixfsFile net t nd = .ok (.symlink target)
    | .dir es => ∃ d, newUnixfsFile net t nd = .ok (.dir d (i64 nd.size.toNat)) ∧
        ∀ (env : Env) (c : Cfg), env.H = H → env.Real → c.dir = d →
          (Serves env.net c.t (· ∈ S) → ∀ k, match es.lookup k with
            | some tr' => ∃ x, (exec env (.find k) c).1 = .node x ∧ KeptTree H S tr' x
            | none => (exec env (.find k) c).1 = .fail .notExist) ∧
          ((∀ x ∈ S, ¬env.bad c.k x) → ¬env.cancel c.k → ∃ ls, (exec env .links c).1 = .list ls none ∧ (ls.map Link.name).Nodup ∧
            (∀ k, k ∈ ls.map Link.name ↔ (es.lookup k).isSome) ∧ ∀ l ∈ ls, ∀ tr', es.lookup l.name = some tr' → KeptTree H S tr' l.target) := by
  cases h with
  | file h =>
    intro rops hg
    obtain ⟨dr, h1, h2, h3⟩ := C108_read_back h net t hn rops hg
    refine ⟨dr, (C52_file dr).mpr h1, ?_, h3⟩
    have := (kept_facts h).2.2.1
    rw [FileNode.size, h2, Reader.i64_id (by omega) (by omega)]
  | symlink hl h => exact (C52_symlink _).mpr ⟨_, _, _, _, rfl, symlink_unmarshal hl h, rfl, rfl⟩
  | @dir M _ es hd hes hsub =>
    obtain ⟨⟨d, h1, h2⟩, h3⟩ := keptDir_facts hd
    refine ⟨d, (C52_dir _ _).mpr ⟨h1, rfl⟩, fun env c hHe hre hc => ⟨fun hn k => ?_, fun hb hcan => ?_⟩⟩
    · obtain ⟨env1, hr1, hc1, hH1, hnet1, href1, hbad1, _⟩ := exists_env H allNet (fun _ => false) (fun _ _ => False) 8
      rw [find_held (reach_complete nd) (c := c) (by rw [hc]; exact load_dir_in h1 (fun l hl => .step hl (.refl _))) (serves_mono hn (Nat.le_refl _) h3) env1 (hH1.trans hHe.symm) hnet1 k]
      rw [← find_st c S k]
      obtain ⟨M'', _, hs, _⟩ := find_spec (c := { c with st := S }) (M := M) (env := env1) (by dsimp only; rw [hc]; exact h2 env1 hH1) k
      have hk := hes k
      have noexc : ∀ {c c' e}, ¬ Excuse env1 c c' e := by
        intro c c' e h
        cases h with
        | fetch h => obtain ⟨u, x, _, _, h⟩ := h; rw [hnet1] at h; cases h
        | add h => obtain ⟨u, _, _, h⟩ := h; rw [href1] at h; cases h
        | enum h1 h2 h =>
          rcases h with ⟨x, h⟩ | h
          · rw [hbad1] at h; exact h
          · exact hc1 _ h
      generalize exec env1 (.find k) { c with st := S } = R at hs
      obtain ⟨r, c'⟩ := R
      cases hs with
      | @find _ v h =>
        rw [h] at hk
        obtain ⟨tr', htr⟩ := Option.isSome_iff_exists.mp hk
        rw [htr]
        exact ⟨_, rfl, hsub k tr' _ htr h⟩
      | findAbsent h =>
        rw [h] at hk
        cases hl : es.lookup k with
        | none => rfl
        | some x => rw [hl] at hk; cases hk
      | findFail h => exact absurd h noexc
    · rw [← links_st c S]
      obtain ⟨ls, h4, h⟩ := links_held (c := { c with st := S }) (M := M) hre (by dsimp only; rw [hc]; exact h2 env hHe) hb hcan
      refine ⟨ls, h4, h.1, fun k => ?_, fun l hl tr' htr => ?_⟩
      · rw [hes k, Option.isSome_iff_exists]
        constructor
        · rintro hk
          obtain ⟨l, hl, rfl⟩ := List.mem_map.mp hk
          cases l with
          | mk n s x => exact ⟨(s, x), (h.2 n (s, x)).mpr hl⟩
        · rintro ⟨v, hv⟩
          exact List.mem_map.mpr ⟨_, (h.2 k v).mp hv, rfl⟩
      · cases l with
        | mk n s x => exact hsub n tr' (s, x) htr ((h.2 n (s, x)).mpr hl)

/-- A tree is still there when more is stored. -/
theorem keptTree_more {S' : List Node} (hs : ∀ x ∈ S, x ∈ S') (h : KeptTree H S tr nd) : KeptTree H S' tr nd := by
  induction h with
  | file h => exact .file (.more h hs)
  | symlink hl h hm => exact .symlink hl h (hs _ hm)
  | dir h hes _ ih => exact .dir (.more h hs) hes ih

theorem lookup_filter_ne {α : Type} (k j : Bytes) : ∀ (es : List (Bytes × α)), (es.filter (fun e => e.1 ≠ k)).lookup j = if j = k then none else es.lookup j
  | [] => by simp
  | (a, x) :: es => by
    have ih := lookup_filter_ne k j es
    by_cases ha : a = k
    · subst ha
      rw [List.filter_cons_of_neg (by simp), ih]
      by_cases hj : j = a
      · simp [hj]
      · rw [List.lookup_cons, show (j == a) = false from by simpa using hj]
    · rw [List.filter_cons_of_pos (by simpa using ha), List.lookup_cons, List.lookup_cons, ih]
      by_cases hja : j = a
      · subst hja; simp [ha]
      · rw [show (j == a) = false from by simpa using hja]

/-- What is stored is never lost from the store. -/
theorem session_store {S : List Node} {d : Dir} {env : Env} {ops : List DOp} {thr : Int} {x nd' : Node} {c : Cfg} (hx : ∀ y, Reach x y → y ∈ S) (hd : newDirectoryFromNode x = .ok d)
    (hin : ∀ name x, DOp.add name x ∈ ops → ∀ y, Reach x y → y ∈ S) (hg : exec env .getNode (execAll env ops { start d thr with st := S }) = (.node nd', c)) : ∀ y ∈ S, y ∈ nd' :: c.st := by
  intro y hy
  have hcomp : Complete (fun x => ∀ y, Reach x y → y ∈ S) := fun x y hx hr z hz => hx z (hr.trans hz)
  have hs : DSafe (fun x => ∀ y, Reach x y → y ∈ S) S (execAll env ops { start d thr with st := S }) :=
    execAll_safe hcomp env ops _ ⟨⟨[], rfl, ChildrenFirst.nil⟩, load_dir_in hd (fun l hl => .inr (fun y hy => hx y (.step hl hy)))⟩ (fun name x hx => hin name x hx)
  obtain ⟨st1, he, _⟩ := (getNode_safe hcomp env hs).1.first
  have : c.st = (getNode env (execAll env ops { start d thr with st := S })).2.st := by
    simp only [exec] at hg
    split at hg <;> cases hg
    next h => rw [h]
  rw [this, he]; simp [hy]

/-- C109: adding or replacing an entry of a directory. The session loads the directory, calls `AddChild`, which
succeeds, and `GetNode`, whose result is stored. -/
theorem C109_put {es : List (Bytes × Tree)} {k : Bytes} {x nd' : Node} {tr' : Tree} {d : Dir} {env : Env} {lg : Nat} {thr : Int} {c : Cfg}
    (h : KeptTree H S (.dir es) nd) (hx : KeptTree H S tr' x) (hk : k ≠ []) (hv : env.Valid lg) (hr : env.Real) (hH : env.H = H)
    (hd : newDirectoryFromNode nd = .ok d) (ha : (exec env (.add k x) { start d thr with st := S }).1 = .done)
    (hg : exec env .getNode (exec env (.add k x) { start d thr with st := S }).2 = (.node nd', c)) :
    KeptTree H (nd' :: c.st) (.dir ((k, tr') :: es.filter (fun e => e.1 ≠ k))) nd' := by
  have hin : ∀ name y, DOp.add name y ∈ [DOp.add k x] → ∀ z, Reach y z → z ∈ S := by
    intro name y hy
    simp only [List.mem_singleton, DOp.add.injEq] at hy
    obtain ⟨rfl, rfl⟩ := hy
    exact C109_blocks hx
  have hmem := session_store (ops := [.add k x]) (C109_blocks h) hd hin hg
  cases h with
  | @dir M _ _ hkd hes hsub =>
    have hM : ∀ j, mapAfter env M [.add k x] { start d thr with st := S } j = if k = j then some (x.size, x) else M j := by
      intro j
      simp only [mapAfter, Dir.results, ha, List.zip_cons_cons, List.zip_nil_right, lastWrite]
    refine .dir (.session (ops := [.add k x]) hkd hv hr hH (by simp [NoEmptyName, DOp.target, hk]) hin hd hg) ?_ ?_
    · intro j
      rw [hM, List.lookup_cons, lookup_filter_ne]
      by_cases hj : j = k
      · subst hj; simp
      · rw [show (j == k) = false from by simpa using hj, if_neg hj, if_neg (fun h => hj h.symm)]
        exact hes j
    · intro j tr2 v hl hm
      rw [hM] at hm
      rw [List.lookup_cons, lookup_filter_ne] at hl
      by_cases hj : j = k
      · subst hj
        simp only [if_true, Option.some.injEq, BEq.rfl] at hm hl
        subst hm; subst hl
        exact keptTree_more hmem hx
      · rw [show (j == k) = false from by simpa using hj, if_neg hj] at hl
        rw [if_neg (fun h => hj h.symm)] at hm
        exact keptTree_more hmem (hsub j tr2 v hl hm)

/-- C109: removing an entry of a directory. -/
theorem C109_remove {es : List (Bytes × Tree)} {k : Bytes} {nd' : Node} {d : Dir} {env : Env} {lg : Nat} {thr : Int} {c : Cfg}
    (h : KeptTree H S (.dir es) nd) (hk : k ≠ []) (hv : env.Valid lg) (hr : env.Real) (hH : env.H = H)
    (hd : newDirectoryFromNode nd = .ok d) (ha : (exec env (.remove k) { start d thr with st := S }).1 = .done)
    (hg : exec env .getNode (exec env (.remove k) { start d thr with st := S }).2 = (.node nd', c)) :
    KeptTree H (nd' :: c.st) (.dir (es.filter (fun e => e.1 ≠ k))) nd' := by
  have hin : ∀ name y, DOp.add name y ∈ [DOp.remove k] → ∀ z, Reach y z → z ∈ S := by
    intro name y hy; simp at hy
  have hmem := session_store (ops := [.remove k]) (C109_blocks h) hd hin hg
  cases h with
  | @dir M _ _ hkd hes hsub =>
    have hM : ∀ j, mapAfter env M [.remove k] { start d thr with st := S } j = if k = j then none else M j := by
      intro j
      simp only [mapAfter, Dir.results, ha, List.zip_cons_cons, List.zip_nil_right, lastWrite]
    refine .dir (.session (ops := [.remove k]) hkd hv hr hH (by simp [NoEmptyName, DOp.target, hk]) hin hd hg) ?_ ?_
    · intro j
      rw [hM, lookup_filter_ne]
      by_cases hj : j = k
      · subst hj; simp
      · rw [if_neg hj, if_neg (fun h => hj h.symm)]
        exact hes j
    · intro j tr2 v hl hm
      rw [hM] at hm
      rw [lookup_filter_ne] at hl
      by_cases hj : j = k
      · subst hj; simp at hl
      · rw [if_neg hj] at hl
        rw [if_neg (fun h => hj h.symm)] at hm
        exact keptTree_more hmem (hsub j tr2 v hl hm)

/-- A kept tree can be made the one entry of a directory. -/
theorem kept_single (hH : ∀ k, (H k).length = 8) (hx : KeptTree H S tr nd) {k : Bytes} (hk : k ≠ []) : ∃ S' nd', KeptTree H S' (.dir [(k, tr)]) nd' := by
  have he : KeptTree H (emptyDirNode :: S) (.dir []) emptyDirNode :=
    .dir (.more .empty (by simp)) (fun k => rfl) (fun k t v h => by cases h)
  obtain ⟨env, h1, h2, h3, h4, h5, h6, h7⟩ := exists_env H (fun _ _ => true) (fun _ => false) (fun _ _ => False) 8
  have hv : env.Valid 3 := ⟨by rw [h3]; exact hH, by rw [h7]; rfl, _, by rw [h7]; exact exS_new⟩
  have hw : env.Works := ⟨by rw [h4]; intros; rfl, by rw [h5]; intros; rfl, by rw [h6]; simp, h2⟩
  obtain ⟨M', hi, _⟩ := execAll_dspec (W := fun _ => True) (bo := none) h1 (lg0 := 3) trivial hv.hp hv.width (by simp) [.add k nd]
    (c := { start newDirectory 0 with st := emptyDirNode :: S }) (M := mapOf [])
    ⟨mapOf_empty (ls := []) (by simp), (loaded_inv (d := .ofNode folderPBData [] .v0) fresh_loaded (by simp)).1, by simp [Plain]⟩ (by simp [NoEmptyName, DOp.target, hk]) (by simp)
  obtain ⟨nd', hg⟩ := getNode_works hi hw
  have ha := adds_done env [(k, nd)] { start newDirectory 0 with st := emptyDirNode :: S } .empty rfl rfl
  simp only [List.map_cons, List.map_nil, Dir.results, List.cons.injEq, and_true] at ha
  simp only [execAll] at hg
  generalize hG : exec env .getNode (exec env (.add k nd) { start newDirectory 0 with st := emptyDirNode :: S }).2 = G at hg
  obtain ⟨r, c⟩ := G
  dsimp only at hg; subst hg
  exact ⟨_, _, C109_put he (keptTree_more (by simp +contextual) hx) hk hv h1 h3 new_loaded ha hG⟩

/-- C109: a file that is edited in two sessions, in a directory in a directory, is found and reads back. -/
example : ∃ S nd, KeptTree H0 S (.dir [([97], .dir [([98], .file [1, 9, 3])])]) nd ∧
    ∀ (net : Net) (oth : OtherResolve), Serves net 0 (· ∈ S) →
      (∃ f, (resolvePath H0 net oth 5 nd [[97], [98]] 0).1 = .ok f ∧ KeptTree H0 S (.file [1, 9, 3]) f) ∧
      (resolvePath H0 net oth 5 nd [[97], [99]] 0).1 = .error .notExist := by
  obtain ⟨S, n, hk⟩ : ∃ S n, Kept S n [1, 9, 3] true := by
    have hsp : ∀ b, (byteEnv.split b).2 = none ∧ (byteEnv.split b).1.flatten = b ∧ AllFit (byteEnv.split b).1 := by
      intro b
      refine ⟨rfl, (byteEnv_ok b).1 rfl, fun c hc => ?_⟩
      simp only [byteEnv, List.mem_map] at hc
      obtain ⟨x, _, rfl⟩ := hc
      simp
    have hnf : NeverFails byteEnv := ⟨fun _ _ => rfl, fun _ => rfl, fun _ => rfl⟩
    obtain ⟨n1, _, h1⟩ := C108_next (ops := [.write [1, 2, 3, 4]]) Kept.empty hnf hsp (by simp [CarefulRun, Careful])
    obtain ⟨n2, _, h2⟩ := C108_next (ops := [.seek 1 0, .write [9], .truncate 3]) h1 hnf hsp
      (by simp only [CarefulRun, Careful]; exact ⟨⟨by decide, 1, rfl, by decide, .inl (by decide)⟩, ⟨by decide, by decide, .inl trivial⟩, ⟨by decide, .inl rfl, .inl (by decide)⟩, trivial⟩)
    exact ⟨_, _, h2⟩
  obtain ⟨S1, n1, h1⟩ := kept_single H0_length (.file hk) (k := [98]) (by simp)
  obtain ⟨S2, n2, h2⟩ := kept_single H0_length h1 (k := [97]) (by simp)
  exact ⟨S2, n2, h2, fun net oth hn => ⟨C109_resolve h2 [[97], [98]] (by simp) (by decide) 0 hn, C109_resolve h2 [[97], [99]] (by simp) (by decide) 0 hn⟩⟩

end Unixfs.Props
