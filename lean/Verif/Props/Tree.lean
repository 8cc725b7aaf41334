import Verif.Spec.Tree
import Verif.Props.File
import Verif.Props.Import
import Verif.Props.Range

/-!
# Whole trees: C83

`Published H tr nd`: the node `nd` has been made from the tree `tr` with this library;
`resolvePath`: the loop of a client (both in `Verif/Spec/Tree`).
-/

namespace Unixfs.Props
open Unixfs.Hamt hiding exec execAll results NoEmptyName lastWrite Cfg
open Unixfs.Dir Unixfs.File Unixfs.Spec
open Unixfs.Import hiding Cfg

variable {H : Hash} {net : Net} {oth : OtherResolve} {tr : Tree} {nd : Node} {t : Nat}

theorem linksTrueL_name : ∀ {ls : List Link}, LinksTrueL ls → ∀ l ∈ ls, l.name = []
  | .mk n s x :: ls, h, l, hl => by
    obtain ⟨h1, _, _, h2⟩ := h
    rcases List.mem_cons.mp hl with rfl | hl
    · exact h1
    · exact linksTrueL_name h2 l hl

theorem resolve_mono (nd : Node) (names : List Bytes) (t : Nat) : t ≤ (resolveUnixfsOnce H net oth nd names t).2 := by
  unfold resolveUnixfsOnce
  split
  · split
    · exact Nat.le_refl _
    · split
      · split
        · exact Nat.le_refl _
        · split
          · exact Nat.le_refl _
          · rename_i s _ _ name rest
            have := getValue_mono H net (Shard.fuel H name) s 0 name t
            rw [show Shard.getValue H net (Shard.fuel H name) s 0 name t = s.find H net name t from rfl] at this
            split <;> (rename_i hs; rw [hs] at this; exact this)
      · exact Nat.le_refl _
  · exact Nat.le_refl _

/-- In files and symbolic links no name is found. -/
theorem resolve_leaf (hf : ∀ d ls b, nd = .proto d ls b → (∀ m, Pb.Data.unmarshal d = .ok m → m.typ ≠ some THAMTShard) ∧ ∀ l ∈ ls, l.name = [])
    (ho : ∀ d, nd ≠ .other d) {k : Bytes} (hk : k ≠ []) (rest : List Bytes) : resolveUnixfsOnce H net oth nd (k :: rest) t = (.error .notExist, t) := by
  cases nd with
  | raw d b => rfl
  | other d => exact absurd rfl (ho d)
  | proto d ls b =>
    obtain ⟨h1, h2⟩ := hf d ls b rfl
    exact (C51_plain H h1).2 (fun l hl => by rw [h2 l hl]; exact fun h => hk h.symm)

theorem sizes_leaf (hs : SizesTrue nd) (hl : LinksTrue nd) {k : Bytes} (hk : k ≠ []) (rest : List Bytes) :
    resolveUnixfsOnce H net oth nd (k :: rest) t = (.error .notExist, t) := by
  refine resolve_leaf ?_ ?_ hk rest
  · rintro d ls b rfl
    obtain ⟨m, hm, hf, _⟩ := hs
    refine ⟨fun m' hm' => ?_, linksTrueL_name hl⟩
    rw [hm] at hm'; cases hm'
    rcases hf with h | h <;> rw [h] <;> decide
  · rintro d rfl; exact hs.elim

theorem symlink_unmarshal {target data : Bytes} (hl : target.length < 2 ^ 63) (h : symlinkData target = .ok data) :
    Pb.Data.unmarshal data = .ok { typ := some TSymlink, data := some target } := by
  have w : Pb.Data.WF { typ := some TSymlink, data := some target } := ⟨rfl, by simp; omega, .nil⟩
  obtain ⟨b, hb, hu⟩ := Pb.Data.unmarshal_marshal _ w
  rw [symlinkData, hb] at h; cases h; exact hu

/-- What the invariant of directories says about a published directory. -/
theorem dir_inv {env env' : Env} {lg : Nat} {ops : List DOp} {thr : Int} (hv : env.Valid lg) (hr : env.Real) (hH : env'.H = env.H) (hn : NoEmptyName ops) :
    DInv env' (· = lg) none (execAll env ops (start newDirectory thr)).dir (execAll env ops (start newDirectory thr)).st
      (mapAfter env (mapOf []) ops (start newDirectory thr)) := by
  obtain ⟨M', h1, h2⟩ := execAll_dspec (W := (· = lg)) (bo := none) hr rfl hv.hp hv.width (by simp) ops (c := start newDirectory thr)
    ⟨mapOf_empty (ls := []) (by simp), (loaded_inv (d := .ofNode folderPBData [] .v0) fresh_loaded (by simp)).1, by simp [Plain]⟩ hn (by simp)
  have h2 := h2.after
  rw [DInv.eq_def, hH]
  rw [h2] at h1
  exact h1

theorem fetchFailed_mono {a b c d : Nat} (h : FetchFailed net b c) (h1 : a ≤ b) (h2 : c ≤ d) : FetchFailed net a d := by
  obtain ⟨u, x, g1, g2, g3⟩ := h
  exact ⟨u, x, by omega, by omega, g3⟩

/-- C83: resolving a path in a node made from a tree gives a node made from the subtree at that path;
or "not exist", if there is nothing at the path; or "not found", if a fetch failed. -/
theorem C83_resolve (h : Published H tr nd) (names : List Bytes) (hne : [] ∉ names) {fuel : Nat} (hfu : names.length ≤ fuel) (t : Nat) :
    (∃ nd' tr', (resolvePath H net oth fuel nd names t).1 = .ok nd' ∧ tr.at names = some tr' ∧ Published H tr' nd') ∨
    ((resolvePath H net oth fuel nd names t).1 = .error .notExist ∧ tr.at names = none) ∨
    ((resolvePath H net oth fuel nd names t).1 = .error .notFound ∧ FetchFailed net t (resolvePath H net oth fuel nd names t).2) := by
  induction names generalizing tr nd fuel t with
  | nil => exact .inl ⟨nd, tr, by rw [resolvePath], by rw [Tree.at], h⟩
  | cons k rest ih =>
    obtain ⟨fuel, rfl⟩ : ∃ f, fuel = f + 1 := ⟨fuel - 1, by simp at hfu; omega⟩
    rw [List.mem_cons, not_or] at hne
    have hk : k ≠ [] := fun h => hne.1 h.symm
    have leaf : resolveUnixfsOnce H net oth nd (k :: rest) t = (.error .notExist, t) → tr.at (k :: rest) = none →
        ((resolvePath H net oth (fuel + 1) nd (k :: rest) t).1 = .error .notExist ∧ tr.at (k :: rest) = none) := by
      intro h1 h2
      rw [resolvePath, h1]
      · exact ⟨rfl, h2⟩
      · simp
    cases h with
    | balanced hf h2 h => exact .inr (.inl (leaf (sizes_leaf (C08_balanced_sizes hf h2 h) (C56_balanced_tsize hf h2 h) hk rest) rfl))
    | trickle hf h1 h => exact .inr (.inl (leaf (sizes_leaf (C08_trickle_sizes hf h1 h) (C56_trickle_tsize hf h1 h) hk rest) rfl))
    | symlink hl h =>
      refine .inr (.inl (leaf (resolve_leaf ?_ (by simp) hk rest) rfl))
      rintro d ls b hb
      cases hb
      exact ⟨fun m hm => by rw [symlink_unmarshal hl h] at hm; cases hm; simp [TSymlink, THAMTShard], by simp⟩
    | @dir env env' lg ops thr _ es hv hr hH hH' hn hg hes hsub =>
      have hi := dir_inv (thr := thr) hv hr (hH'.trans hH.symm) hn
      have hR := resolve_dir (oth := oth) (net := net) (t := t) (k := k) (rest := rest) hi hg _ rfl
      have hmono : t ≤ (resolveUnixfsOnce H net oth nd (k :: rest) t).2 := by
        exact resolve_mono _ _ _
      rw [hH'] at hR
      rw [show resolvePath H net oth (fuel + 1) nd (k :: rest) t = _ from resolvePath.eq_3 _ _ _ _ _ _ _ (by simp)]
      generalize resolveUnixfsOnce H net oth nd (k :: rest) t = R at hR hmono
      obtain ⟨r, t'⟩ := R
      rcases hR with ⟨l, h4, h5⟩ | ⟨h4, h5⟩ | ⟨h4, h5⟩
      · dsimp only at h4; subst h4
        dsimp only
        have he : (es.lookup k).isSome = true := by rw [hes, h5]; rfl
        obtain ⟨tr', htr⟩ := Option.isSome_iff_exists.mp he
        have hp := hsub k tr' _ htr h5
        by_cases hnet : net t' l.target = true
        · rw [if_pos hnet]
          have hat : (Tree.dir es).at (k :: rest) = tr'.at rest := by rw [Tree.at, htr]
          rw [hat]
          rcases ih hp hne.2 (by simpa using hfu) (t' + 1) with g | g | ⟨g1, g2⟩
          · exact .inl g
          · exact .inr (.inl g)
          · exact .inr (.inr ⟨g1, fetchFailed_mono g2 (by simp at hmono; omega) (Nat.le_refl _)⟩)
        · rw [if_neg hnet]
          exact .inr (.inr ⟨rfl, t', l.target, hmono, by simp, by simpa using hnet⟩)
      · dsimp only at h4; subst h4
        have he : es.lookup k = none := by
          have := hes k
          rw [h5] at this
          cases hl : es.lookup k with
          | none => rfl
          | some x => rw [hl] at this; cases this
        exact .inr (.inl ⟨rfl, by rw [Tree.at, he]⟩)
      · dsimp only at h4; subst h4
        exact .inr (.inr ⟨rfl, h5⟩)

/-- C83: when every block can be fetched, the path is resolved if there is something at it, to a node
made from what is there, and is reported not to exist otherwise. -/
theorem C83_resolve_works (h : Published H tr nd) (names : List Bytes) (hne : [] ∉ names) {fuel : Nat} (hfu : names.length ≤ fuel) (t : Nat) (hw : WorksFrom net t) :
    match tr.at names with
    | some tr' => ∃ nd', (resolvePath H net oth fuel nd names t).1 = .ok nd' ∧ Published H tr' nd'
    | none => (resolvePath H net oth fuel nd names t).1 = .error .notExist := by
  rcases C83_resolve (net := net) (oth := oth) h names hne hfu t with ⟨nd', tr', h1, h2, h3⟩ | ⟨h1, h2⟩ | ⟨_, u, x, h1, _, h2⟩
  · rw [h2]; exact ⟨nd', h1, h3⟩
  · rw [h2]; exact h1
  · rw [hw u h1] at h2; cases h2

theorem find_st {env : Env} (c : Cfg) (st : List Node) (k : Bytes) : (exec env (.find k) { c with st := st }).1 = (exec env (.find k) c).1 := by
  simp only [exec, find]
  cases c.dir with
  | basic b => dsimp only; generalize b.find env k c.t = R; obtain ⟨r, t⟩ := R; cases r <;> rfl
  | hamt h => dsimp only; generalize h.find env k c.t = R; obtain ⟨r, h', t⟩ := R; cases r <;> rfl

theorem links_st {env : Env} (c : Cfg) (st : List Node) : (exec env .links { c with st := st }).1 = (exec env .links c).1 := by
  simp only [exec, links]
  cases c.dir <;> rfl

/-- C83: what `NewUnixfsFile` makes of a node made from a tree. A file reads as its content; a symbolic
link has its target; in a directory, `Find` gives for every entry of the tree a node made from it, and
nothing else, and `Links` lists the names of the entries, each once, with such nodes. -/
theorem C83_open (h : Published H tr nd) (hw : WorksFrom net t) :
    match tr with
    | .file c => c.length < 2 ^ 63 → ∀ rops, GoodWriters rops →
        ∃ dr, newUnixfsFile net t nd = .ok (.file dr) ∧ (FileNode.file dr).size = some (c.length : Int) ∧ ∃ p, FlatRun c 0 rops (dr.run net rops).1 p
    | .symlink target => newUnixfsFile net t nd = .ok (.symlink target)
    | .dir es => ∃ d, newUnixfsFile net t nd = .ok (.dir d (i64 nd.size.toNat)) ∧
        ∀ (env : Env) (c : Cfg), env.H = H → env.Works → env.Real → c.dir = d →
          (∀ k, match es.lookup k with
            | some tr' => ∃ x, (exec env (.find k) c).1 = .node x ∧ Published H tr' x
            | none => (exec env (.find k) c).1 = .fail .notExist) ∧
          ∃ ls, (exec env .links c).1 = .list ls none ∧ (ls.map Link.name).Nodup ∧
            (∀ k, k ∈ ls.map Link.name ↔ (es.lookup k).isSome) ∧ ∀ l ∈ ls, ∀ tr', es.lookup l.name = some tr' → Published H tr' l.target := by
  cases h with
  | balanced hf h2 h =>
    intro hl rops hg
    exact C52_file_content hw (opens_self (C08_balanced_sizes hf h2 h)) (C08_balanced_sizes hf h2 h) (C06_balanced_content hf h2 h) hl rops hg
  | trickle hf h1 h =>
    intro hl rops hg
    exact C52_file_content hw (opens_self (C08_trickle_sizes hf h1 h)) (C08_trickle_sizes hf h1 h) (C07_trickle_content hf h1 h) hl rops hg
  | symlink hl h => exact (C52_symlink _).mpr ⟨_, _, _, _, rfl, symlink_unmarshal hl h, rfl, rfl⟩
  | @dir env0 env' lg ops thr _ es hv hr hH hH' hn hg hes hsub =>
    have hi := dir_inv (thr := thr) hv hr (hH'.trans hH.symm) hn
    obtain ⟨d, h4, h5⟩ := node_opens hi hg
    refine ⟨d, (C52_dir _ _).mpr ⟨h4, rfl⟩, fun env c hHe hwe hre hc => ?_⟩
    generalize (exec env' .getNode (execAll env0 ops (start newDirectory thr))).2.st = st at h5
    have h6 : DInv env (· = lg) none ({ c with st := st } : Cfg).dir ({ c with st := st } : Cfg).st (mapAfter env0 (mapOf []) ops (start newDirectory thr)) := by
      have h5' := h5
      rw [DInv.eq_def, hH'] at h5'
      rw [DInv.eq_def, hHe]
      dsimp only
      rw [hc]; exact h5'
    generalize mapAfter env0 (mapOf []) ops (start newDirectory thr) = M at *
    have noexc : ∀ {c c' e}, ¬ Excuse env c c' e := by
      intro c c' e h
      cases h with
      | fetch h => obtain ⟨u, x, _, _, h⟩ := h; rw [hwe.net] at h; cases h
      | add h => obtain ⟨u, _, _, h⟩ := h; rw [hwe.ref] at h; cases h
      | enum h1 h2 h => rcases h with ⟨x, h⟩ | h; exacts [absurd h (hwe.bad _ _), absurd h (hwe.cancel _)]
    refine ⟨fun k => ?_, ?_⟩
    · rw [← find_st c st k]
      obtain ⟨M'', _, hs, _⟩ := find_spec h6 k
      have hk := hes k
      generalize exec env (.find k) { c with st := st } = R at hs
      obtain ⟨r, c'⟩ := R
      cases hs with
      | @find _ v h =>
        rw [h] at hk
        obtain ⟨tr', htr⟩ := Option.isSome_iff_exists.mp hk
        rw [htr]
        exact ⟨_, rfl, hsub k tr' _ htr h⟩
      | findAbsent h =>
        rw [h] at hk
        cases hl : es.lookup k with
        | none => rfl
        | some x => rw [hl] at hk; cases hk
      | findFail h => exact absurd h noexc
    · rw [← links_st c st]
      obtain ⟨M'', _, hs, _⟩ := links_spec hre h6
      generalize exec env .links { c with st := st } = R at hs
      obtain ⟨r, c'⟩ := R
      cases hs with
      | @links ls h =>
        refine ⟨ls, rfl, h.1, fun k => ?_, fun l hl tr' htr => ?_⟩
        · rw [hes k, Option.isSome_iff_exists]
          constructor
          · rintro hk
            obtain ⟨l, hl, rfl⟩ := List.mem_map.mp hk
            cases l with
            | mk n s x => exact ⟨(s, x), (h.2 n (s, x)).mpr hl⟩
          · rintro ⟨v, hv⟩
            exact List.mem_map.mpr ⟨_, (h.2 k v).mp hv, rfl⟩
        · cases l with
          | mk n s x => exact hsub n tr' (s, x) htr ((h.2 n (s, x)).mpr hl)
      | linksCancelled h hc => obtain ⟨j, _, _, hc⟩ := hc; exact absurd hc (hwe.cancel _)
      | linksFail h hx => exact absurd hx noexc

/-! ### Every tree can be stored -/

/-- Additions to a directory that is never sharded all succeed. -/
theorem adds_done (env : Env) : ∀ (es : List (Bytes × Node)) (c : Cfg) (d : Basic), c.dir = .basic d → c.thr = 0 →
    results env (es.map (fun e => DOp.add e.1 e.2)) c = es.map (fun _ => .done)
  | [], _, _, _, _ => rfl
  | e :: es, c, d, hc, ht => by
    have h1 : ∃ d', exec env (.add e.1 e.2) c = (.done, { c with dir := .basic d' }) := by
      simp only [exec, addChild, hc, Basic.needsToSwitchToHAMTDir, ht, if_true, Basic.addChild, Basic.addLinkChild]
      generalize hr : d.removeChild e.1 = R
      obtain ⟨r, d'⟩ := R
      rw [Basic.removeChild] at hr
      split at hr
      · cases hr; exact ⟨_, rfl⟩
      · cases hr; exact ⟨_, rfl⟩
    obtain ⟨d', h1⟩ := h1
    rw [List.map_cons, results, h1, List.map_cons, adds_done env es _ d' rfl (by exact ht)]

/-- The map after additions of distinct names. -/
theorem lastWrite_adds (k : Bytes) : ∀ (es : List (Bytes × Node)) (cur : Option LinkVal), (es.map Prod.fst).Nodup →
    lastWrite k cur ((es.map (fun e => DOp.add e.1 e.2)).zip (es.map (fun _ => DRes.done))) =
      match es.lookup k with | some nd => some (nd.size, nd) | none => cur
  | [], _, _ => rfl
  | (n, x) :: es, cur, h => by
    rw [List.map_cons, List.nodup_cons] at h
    rw [List.map_cons, List.map_cons, List.zip_cons_cons, lastWrite, lastWrite_adds k es _ h.2, List.lookup_cons]
    by_cases hk : n = k
    · subst hk
      have hno : es.lookup n = none := by
        rw [List.lookup_eq_none_iff]
        intro p hp
        have : n ≠ p.1 := fun e => h.1 (List.mem_map.mpr ⟨p, hp, e.symm⟩)
        simpa using this
      rw [hno]
      simp
    · rw [if_neg hk, show (k == n) = false by simpa using fun e => hk e.symm]

theorem lookup_map {α β : Type} (f : Bytes × α → β) (k : Bytes) : ∀ es : List (Bytes × α),
    (es.map (fun e => (e.1, f e))).lookup k = (es.lookup k).map (fun a => f (k, a))
  | [] => rfl
  | (n, x) :: es => by
    rw [List.map_cons, List.lookup_cons, List.lookup_cons, lookup_map f k es]
    by_cases hk : k = n
    · subst hk; simp
    · rw [show (k == n) = false by simpa using hk]

theorem lookup_mem {α : Type} {k : Bytes} {a : α} : ∀ {es : List (Bytes × α)}, es.lookup k = some a → (k, a) ∈ es
  | (n, x) :: es, h => by
    rw [List.lookup_cons] at h
    by_cases hk : k = n
    · subst hk; simp at h; subst h; exact List.mem_cons_self
    · rw [show (k == n) = false by simpa using hk] at h
      exact List.mem_cons_of_mem _ (lookup_mem h)

/-- C83: every tree whose directories have distinct names that are not empty can be stored. -/
theorem C83_storable (hH : ∀ k, (H k).length = 8) (h : tr.Proper) : ∃ nd, Published H tr nd := by
  induction h with
  | file c =>
    have hfit : AllFit (c.map (fun b => [b])) := by
      intro x hx
      obtain ⟨b, _, rfl⟩ := List.mem_map.mp hx
      simp
    have hf : Fresh { maxlinks := 174 } none (c.map (fun b => [b])) none none _ := ⟨_, rfl, rfl⟩
    obtain ⟨root, db', hr⟩ := C13_balanced_terminates hf (by decide) hfit (Nat.le_refl _)
    have := Published.balanced (H := H) hf (by decide) hr
    rw [show (c.map (fun b => [b])).flatten = c by rw [← List.flatMap_def]; simp] at this
    exact ⟨_, this⟩
  | @symlink target hl =>
    obtain ⟨data, hd, _⟩ := C52_symlink_roundtrip (net := fun _ _ => true) (t := 0) target hl
    exact ⟨.proto data [] .v0, .symlink hl hd⟩
  | @dir es hnd hne hs ih =>
    have : ∀ e : Bytes × Tree, ∃ nd, e ∈ es → Published H e.2 nd := by
      intro e
      by_cases he : e ∈ es
      · obtain ⟨nd, h⟩ := ih e he; exact ⟨nd, fun _ => h⟩
      · exact ⟨.raw [] .v0, fun h => absurd h he⟩
    choose f hf using this
    obtain ⟨env, h1, h2, h3, h4, h5, h6, h7⟩ := exists_env H (fun _ _ => true) (fun _ => false) (fun _ _ => False) 8
    have hv : env.Valid 3 := ⟨by rw [h3]; exact hH, by rw [h7]; rfl, _, by rw [h7]; exact exS_new⟩
    have hw : env.Works := ⟨by rw [h4]; intros; rfl, by rw [h5]; intros; rfl, by rw [h6]; simp, h2⟩
    have hfst : (es.map (fun e => (e.1, f e))).map Prod.fst = es.map Prod.fst := by simp [Function.comp_def]
    have hn : NoEmptyName ((es.map (fun e => (e.1, f e))).map (fun e => DOp.add e.1 e.2)) := by
      intro op hop
      obtain ⟨e, he, rfl⟩ := List.mem_map.mp hop
      intro h
      have h : e.1 = [] := by simpa [DOp.target] using h
      exact hne (hfst ▸ (h ▸ List.mem_map_of_mem he))
    have hmap : ∀ k, mapAfter env (mapOf []) ((es.map (fun e => (e.1, f e))).map (fun e => DOp.add e.1 e.2)) (start newDirectory 0) k
        = (es.lookup k).map (fun t => ((f (k, t)).size, f (k, t))) := by
      intro k
      rw [mapAfter, adds_done env _ _ .empty rfl rfl, lastWrite_adds k _ _ (by rw [hfst]; exact hnd), lookup_map]
      cases es.lookup k <;> rfl
    obtain ⟨nd, hg⟩ := getNode_works (dir_inv (thr := 0) hv h1 rfl hn) hw
    refine ⟨nd, .dir hv h1 h3 h3 hn hg (fun k => ?_) (fun k t v ht hm => ?_)⟩
    · rw [hmap]; cases es.lookup k <;> rfl
    · rw [hmap, ht] at hm
      cases hm
      exact hf _ (lookup_mem ht)

/-- A tree with a file, a symbolic link and a directory in a directory. -/
def exTree : Tree := .dir [([97], .file [1, 2, 3]), ([100], .dir [([98], .symlink [97]), ([99], .file [])])]

/-- C83: the hypotheses are met by this tree; its paths. -/
example : (∃ nd, Published H0 exTree nd) ∧ exTree.at [[100], [98]] = some (.symlink [97]) ∧ exTree.at [[97], [98]] = none ∧ exTree.at [[98]] = none := by
  refine ⟨C83_storable H0_length (.dir (by decide) (by decide) ?_), rfl, rfl, rfl⟩
  intro e he
  simp only [List.mem_cons, List.not_mem_nil, or_false] at he
  rcases he with rfl | rfl
  · exact .file _
  · refine .dir (by decide) (by decide) ?_
    intro e he
    simp only [List.mem_cons, List.not_mem_nil, or_false] at he
    rcases he with rfl | rfl
    · exact .symlink (by decide)
    · exact .file _

end Unixfs.Props
