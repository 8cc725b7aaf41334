import Verif.Spec.TreePublished
import Verif.Props.DirPublished
import Verif.Props.FileForm
import Verif.Props.Tree

/-!
# C114: a tree in the published format, whoever made it, resolves, lists and reads back
-/

namespace Unixfs.Props
open Unixfs.Hamt hiding exec execAll results NoEmptyName lastWrite Cfg
open Unixfs.Dir Unixfs.File Unixfs.Spec
open Unixfs.Import hiding Cfg

variable {H : Hash} {net : Net} {oth : OtherResolve} {tr : Tree} {nd : Node} {t : Nat}

/-- A client whose calls succeed. -/
def calmEnv (H : Hash) : Env :=
  { H := H, net := fun _ _ => true, ref := fun _ => false, enum := fun _ _ _ => ⟨.ended, []⟩, bad := fun _ _ => False, cancel := fun _ => False, width := 8 }

mutual
/-- The shards of a node are finitely many. -/
theorem subs_fin (dg : Nat) : ∀ nd : Node, ∃ st : List Node, ∀ x, SubShard dg nd x → x ∈ st
  | .raw d b => ⟨[.raw d b], fun x h => by cases h; simp⟩
  | .other d => ⟨[.other d], fun x h => by cases h; simp⟩
  | .proto d ls b => by
    obtain ⟨st, hst⟩ := subsL_fin dg ls
    refine ⟨.proto d ls b :: st, fun x h => ?_⟩
    cases h with
    | self => simp
    | link hl hn h => exact List.mem_cons_of_mem _ (hst _ hl _ h)
theorem subsL_fin (dg : Nat) : ∀ ls : List Link, ∃ st : List Node, ∀ l ∈ ls, ∀ x, SubShard dg l.target x → x ∈ st
  | [] => ⟨[], by simp⟩
  | .mk n s y :: ls => by
    obtain ⟨st, hst⟩ := subs_fin dg y
    obtain ⟨st', hst'⟩ := subsL_fin dg ls
    refine ⟨st ++ st', fun l hl x h => ?_⟩
    rcases List.mem_cons.mp hl with rfl | hl
    · exact List.mem_append_left _ (hst _ h)
    · exact List.mem_append_right _ (hst' l hl x h)
end

/-- A published directory is loaded, holds its entries and is written as it was. -/
theorem published_dir {lg : Nat} {b : Builder} {es : List Spec.Entry} (hH : ∀ k, (H k).length = 8) (hlo : 3 ≤ lg) (hhi : lg ≤ 10) (hb : b.codec = 0x70) (h : DirForm H (· = lg) b es nd)
    (hu : (es.map Prod.fst).Nodup) (hne : [] ∉ es.map Prod.fst) :
    ∃ d st, newDirectoryFromNode nd = .ok d ∧ DInv (calmEnv H) (· = lg) none d st (mapOf (es.map entryLink)) ∧
      (exec (calmEnv H) .getNode { start d 0 with st := st }).1 = .node nd := by
  obtain ⟨st, hst⟩ := subs_fin (digits (2 ^ lg)) nd
  obtain ⟨d, h1, h2, h3⟩ := published_loads (env := calmEnv H) (W := (· = lg)) hH hlo hhi hb h (fun _ h => h) hu hne (fun _ => hst) none (by simp)
  exact ⟨d, st, h1, h2, h3 _ _ (fun _ => rfl)⟩

theorem lookup_getElem {α : Type} : ∀ (ts : List (Bytes × α)) (k : Bytes) (a : α), ts.lookup k = some a → ∃ i : Nat, ts[i]? = some (k, a)
  | (n, x) :: ts, k, a, h => by
    rw [List.lookup_cons] at h
    by_cases hk : k = n
    · subst hk; simp at h; subst h; exact ⟨0, rfl⟩
    · rw [show (k == n) = false by simpa using hk] at h
      obtain ⟨i, hi⟩ := lookup_getElem ts k a h
      exact ⟨i + 1, hi⟩

/-- The entries of the tree and of the node. -/
theorem tree_entries {es : List Spec.Entry} {ts : List (Bytes × Tree)} (hu : (es.map Prod.fst).Nodup) (hnames : ts.map Prod.fst = es.map Prod.fst)
    (hsub : ∀ (i : Nat) t e, ts[i]? = some t → es[i]? = some e → TreeForm H t.2 e.2.2) :
    (∀ k, (ts.lookup k).isSome = (mapOf (es.map entryLink) k).isSome) ∧
    ∀ k t v, ts.lookup k = some t → mapOf (es.map entryLink) k = some v → TreeForm H t v.2 := by
  have hL := lists_mapOf (ls := es.map entryLink) (by rw [entryLink_names]; exact hu)
  have hE := (lists_entries hL).2
  refine ⟨fun k => ?_, fun k t v h1 h2 => ?_⟩
  · rw [Bool.eq_iff_iff, Option.isSome_iff_exists, Option.isSome_iff_exists]
    constructor
    · rintro ⟨t, h⟩
      have : k ∈ es.map Prod.fst := by rw [← hnames]; exact List.mem_map.mpr ⟨_, lookup_mem h, rfl⟩
      obtain ⟨⟨k', v⟩, he, rfl⟩ := List.mem_map.mp this
      exact ⟨v, (hE _ _).mpr he⟩
    · rintro ⟨v, h⟩
      have : k ∈ ts.map Prod.fst := by rw [hnames]; exact List.mem_map.mpr ⟨_, (hE _ _).mp h, rfl⟩
      cases hl : ts.lookup k with
      | some t => exact ⟨t, rfl⟩
      | none =>
        rw [List.lookup_eq_none_iff] at hl
        obtain ⟨p, hp, rfl⟩ := List.mem_map.mp this
        have := hl p hp
        simp at this
  · obtain ⟨i, hi⟩ := lookup_getElem ts k t h1
    have hk : (es.map Prod.fst)[i]? = some k := by rw [← hnames, List.getElem?_map, hi]; rfl
    rw [List.getElem?_map, Option.map_eq_some_iff] at hk
    obtain ⟨⟨k', v'⟩, he, rfl⟩ := hk
    have hv : v' = v := by
      have h3 := (hE _ _).mpr (List.mem_of_getElem? he)
      rw [h3] at h2
      exact Option.some.inj h2
    subst hv
    exact hsub i _ _ hi he

/-- A published file has true sizes, nameless links and the content of the tree. -/
theorem file_facts {c : Bytes} (h : TreeForm H (.file c) nd) : SizesTrue nd ∧ LinksTrue nd ∧ content nd = some c ∧ c.length < 2 ^ 63 := by
  have tree : ∀ {p : Params} {typ : UInt8} {x : Spec.Part} (tr : T), (typ = 0 ∨ typ = 2) → AllFit tr.chunks → tr.chunks.flatten.length < 2 ^ 63 →
      x = tr.fold (leafPart p typ) (innerPart p) → SizesTrue x.node ∧ LinksTrue x.node ∧ content x.node = some tr.chunks.flatten ∧ tr.chunks.flatten.length < 2 ^ 63 := by
    rintro p typ x tr ht hfit hlen rfl
    obtain ⟨_, h2, h3⟩ := read_tree (p := p) ht tr hfit hlen
    refine ⟨h2, ?_, h3, hlen⟩
    rw [fold_part p typ (by rcases ht with rfl | rfl <;> decide) tr (by omega)]
    exact linksTrue_toNode _ tr
  generalize hT : Tree.file c = T at h
  cases h with
  | balanced ht hfit hlen h =>
    cases hT
    obtain ⟨tr, h1, rfl⟩ := read_form (.inl h)
    exact tree tr ht hfit hlen h1
  | trickle ht hfit hlen h =>
    cases hT
    obtain ⟨tr, h1, rfl⟩ := read_form (.inr h)
    exact tree tr ht hfit hlen h1
  | empty =>
    cases hT
    have hu : Pb.Data.unmarshal [0x08, 2, 0x18, 0] = .ok { typ := some TFile, filesize := some 0 } := by decide +kernel
    refine ⟨⟨_, hu, .inl rfl, by simp, by simp, ?_, trivial⟩, by simp [LinksTrue, LinksTrueL], ?_, by simp⟩
    · simp [contentLen, content, hu, IsFileMsg]
    · simp [content, hu, IsFileMsg]
  | symlink _ => cases hT
  | dir => cases hT

theorem symlink_read (target : Bytes) (hl : target.length < 2 ^ 63) : Pb.Data.unmarshal ([0x08, 4] ++ str 0x12 target) = .ok { typ := some TSymlink, data := some target } := by
  have h : symlinkData target = .ok ([0x08, 4] ++ str 0x12 target) := (C110_constructors none target [] 0 0 0 0 (by simp) hl (by simp)).2.2.2.1
  exact symlink_unmarshal hl h

/-- C114: resolving a path in a published tree gives the published form of the subtree at that path; or "not exist", if there is nothing at the path; or
"not found", if a fetch failed. -/
theorem C114_resolve (hH : ∀ k, (H k).length = 8) (h : TreeForm H tr nd) (names : List Bytes) (hne : [] ∉ names) {fuel : Nat} (hfu : names.length ≤ fuel) (t : Nat) :
    (∃ nd' tr', (resolvePath H net oth fuel nd names t).1 = .ok nd' ∧ tr.at names = some tr' ∧ TreeForm H tr' nd') ∨
    ((resolvePath H net oth fuel nd names t).1 = .error .notExist ∧ tr.at names = none) ∨
    ((resolvePath H net oth fuel nd names t).1 = .error .notFound ∧ FetchFailed net t (resolvePath H net oth fuel nd names t).2) := by
  induction names generalizing tr nd fuel t with
  | nil => exact .inl ⟨nd, tr, by rw [resolvePath], by rw [Tree.at], h⟩
  | cons k rest ih =>
    obtain ⟨fuel, rfl⟩ : ∃ f, fuel = f + 1 := ⟨fuel - 1, by simp at hfu; omega⟩
    rw [List.mem_cons, not_or] at hne
    have hk : k ≠ [] := fun h => hne.1 h.symm
    have leaf : resolveUnixfsOnce H net oth nd (k :: rest) t = (.error .notExist, t) → tr.at (k :: rest) = none →
        ((resolvePath H net oth (fuel + 1) nd (k :: rest) t).1 = .error .notExist ∧ tr.at (k :: rest) = none) := by
      intro h1 h2
      rw [resolvePath, h1]
      · exact ⟨rfl, h2⟩
      · simp
    have hfull := h
    cases h with
    | balanced => obtain ⟨h1, h2, _⟩ := file_facts hfull; exact .inr (.inl (leaf (sizes_leaf h1 h2 hk rest) rfl))
    | trickle => obtain ⟨h1, h2, _⟩ := file_facts hfull; exact .inr (.inl (leaf (sizes_leaf h1 h2 hk rest) rfl))
    | empty => obtain ⟨h1, h2, _⟩ := file_facts hfull; exact .inr (.inl (leaf (sizes_leaf h1 h2 hk rest) rfl))
    | symlink hl =>
      refine .inr (.inl (leaf (resolve_leaf ?_ (by simp) hk rest) rfl))
      rintro d ls b hb
      cases hb
      exact ⟨fun m hm => by rw [symlink_read _ hl] at hm; cases hm; simp [TSymlink, THAMTShard], by simp⟩
    | @dir lg b es _ ts hlo hhi hb h hu hne' hnames hsub =>
      obtain ⟨d, st, _, hi, hg⟩ := published_dir hH hlo hhi hb h hu hne'
      obtain ⟨hes, hsub⟩ := tree_entries hu hnames hsub
      have hR := resolve_dir (oth := oth) (net := net) (t := t) (k := k) (rest := rest) (c := { start d 0 with st := st }) hi hg _ rfl
      have hmono : t ≤ (resolveUnixfsOnce H net oth nd (k :: rest) t).2 := resolve_mono _ _ _
      rw [show (calmEnv H).H = H from rfl] at hR
      rw [show resolvePath H net oth (fuel + 1) nd (k :: rest) t = _ from resolvePath.eq_3 _ _ _ _ _ _ _ (by simp)]
      generalize resolveUnixfsOnce H net oth nd (k :: rest) t = R at hR hmono
      obtain ⟨r, t'⟩ := R
      rcases hR with ⟨l, h4, h5⟩ | ⟨h4, h5⟩ | ⟨h4, h5⟩
      · dsimp only at h4; subst h4
        dsimp only
        have he : (ts.lookup k).isSome = true := by rw [hes, h5]; rfl
        obtain ⟨tr', htr⟩ := Option.isSome_iff_exists.mp he
        have hp := hsub k tr' _ htr h5
        by_cases hnet : net t' l.target = true
        · rw [if_pos hnet]
          have hat : (Tree.dir ts).at (k :: rest) = tr'.at rest := by rw [Tree.at, htr]
          rw [hat]
          rcases ih hp hne.2 (by simpa using hfu) (t' + 1) with g | g | ⟨g1, g2⟩
          · exact .inl g
          · exact .inr (.inl g)
          · exact .inr (.inr ⟨g1, fetchFailed_mono g2 (by simp at hmono; omega) (Nat.le_refl _)⟩)
        · rw [if_neg hnet]
          exact .inr (.inr ⟨rfl, t', l.target, hmono, by simp, by simpa using hnet⟩)
      · dsimp only at h4; subst h4
        have he : ts.lookup k = none := by
          have := hes k
          rw [h5] at this
          cases hl : ts.lookup k with
          | none => rfl
          | some x => rw [hl] at this; cases this
        exact .inr (.inl ⟨rfl, by rw [Tree.at, he]⟩)
      · dsimp only at h4; subst h4
        exact .inr (.inr ⟨rfl, h5⟩)

/-- C114: what `NewUnixfsFile` makes of a published tree. A file reads as its content; a symbolic link has its target; in a directory, `Find` gives
for every entry of the tree its published form, and nothing else, and `Links` lists the names of the entries, each once, with these forms. -/
theorem C114_open (hH : ∀ k, (H k).length = 8) (h : TreeForm H tr nd) (hw : WorksFrom net t) :
    match tr with
    | .file c => ∀ rops, GoodWriters rops →
        ∃ dr, newUnixfsFile net t nd = .ok (.file dr) ∧ (FileNode.file dr).size = some (c.length : Int) ∧ ∃ p, FlatRun c 0 rops (dr.run net rops).1 p
    | .symlink target => newUnixfsFile net t nd = .ok (.symlink target)
    | .dir es => ∃ d, newUnixfsFile net t nd = .ok (.dir d (i64 nd.size.toNat)) ∧
        ∀ (env : Env) (c : Cfg), env.H = H → env.Works → env.Real → c.dir = d →
          (∀ k, match es.lookup k with
            | some tr' => ∃ x, (exec env (.find k) c).1 = .node x ∧ TreeForm H tr' x
            | none => (exec env (.find k) c).1 = .fail .notExist) ∧
          ∃ ls, (exec env .links c).1 = .list ls none ∧ (ls.map Link.name).Nodup ∧
            (∀ k, k ∈ ls.map Link.name ↔ (es.lookup k).isSome) ∧ ∀ l ∈ ls, ∀ tr', es.lookup l.name = some tr' → TreeForm H tr' l.target := by
  have file : ∀ {c : Bytes}, TreeForm H (.file c) nd → ∀ rops, GoodWriters rops →
        ∃ dr, newUnixfsFile net t nd = .ok (.file dr) ∧ (FileNode.file dr).size = some (c.length : Int) ∧ ∃ p, FlatRun c 0 rops (dr.run net rops).1 p := by
    intro c h rops hg
    obtain ⟨h1, _, h2, h3⟩ := file_facts h
    exact C52_file_content hw (opens_self h1) h1 h2 h3 rops hg
  have hfull := h
  cases h with
  | balanced => exact file hfull
  | trickle => exact file hfull
  | empty => exact file hfull
  | symlink hl => exact (C52_symlink _).mpr ⟨_, _, _, _, rfl, symlink_read _ hl, rfl, rfl⟩
  | @dir lg b es0 _ ts hlo hhi hb h hu hne' hnames hsub =>
    obtain ⟨d, st, h4, h5, _⟩ := published_dir hH hlo hhi hb h hu hne'
    obtain ⟨hes, hsub⟩ := tree_entries hu hnames hsub
    refine ⟨d, (C52_dir _ _).mpr ⟨h4, rfl⟩, fun env c hHe hwe hre hc => ?_⟩
    have h6 : DInv env (· = lg) none ({ c with st := st } : Cfg).dir ({ c with st := st } : Cfg).st (mapOf (es0.map entryLink)) := by
      have h5' := h5
      rw [DInv.eq_def, show (calmEnv H).H = H from rfl] at h5'
      rw [DInv.eq_def, hHe]
      dsimp only
      rw [hc]; exact h5'
    generalize mapOf (es0.map entryLink) = M at *
    have noexc : ∀ {c c' e}, ¬ Excuse env c c' e := by
      intro c c' e h
      cases h with
      | fetch h => obtain ⟨u, x, _, _, h⟩ := h; rw [hwe.net] at h; cases h
      | add h => obtain ⟨u, _, _, h⟩ := h; rw [hwe.ref] at h; cases h
      | enum h1 h2 h => rcases h with ⟨x, h⟩ | h; exacts [absurd h (hwe.bad _ _), absurd h (hwe.cancel _)]
    refine ⟨fun k => ?_, ?_⟩
    · rw [← find_st c st k]
      obtain ⟨M'', _, hs, _⟩ := find_spec h6 k
      have hk := hes k
      generalize exec env (.find k) { c with st := st } = R at hs
      obtain ⟨r, c'⟩ := R
      cases hs with
      | @find _ v h =>
        rw [h] at hk
        obtain ⟨tr', htr⟩ := Option.isSome_iff_exists.mp hk
        rw [htr]
        exact ⟨_, rfl, hsub k tr' _ htr h⟩
      | findAbsent h =>
        rw [h] at hk
        cases hl : ts.lookup k with
        | none => rfl
        | some x => rw [hl] at hk; cases hk
      | findFail h => exact absurd h noexc
    · rw [← links_st c st]
      obtain ⟨M'', _, hs, _⟩ := links_spec hre h6
      generalize exec env .links { c with st := st } = R at hs
      obtain ⟨r, c'⟩ := R
      cases hs with
      | @links ls h =>
        refine ⟨ls, rfl, h.1, fun k => ?_, fun l hl tr' htr => ?_⟩
        · rw [hes k, Option.isSome_iff_exists]
          constructor
          · rintro hk
            obtain ⟨l, hl, rfl⟩ := List.mem_map.mp hk
            cases l with
            | mk n s x => exact ⟨(s, x), (h.2 n (s, x)).mpr hl⟩
          · rintro ⟨v, hv⟩
            exact List.mem_map.mpr ⟨_, (h.2 k v).mp hv, rfl⟩
        · cases l with
          | mk n s x => exact hsub n tr' (s, x) htr ((h.2 n (s, x)).mpr hl)
      | linksCancelled h hc => obtain ⟨j, _, _, hc⟩ := hc; exact absurd hc (hwe.cancel _)
      | linksFail h hx => exact absurd hx noexc

/-- C114: imported files are published. -/
theorem C114_imported {p : Params} {path : Option Bytes} {chunks : List Bytes} {budget : Option Nat} {db db' : DB} {fuel : Nat} (hf : Fresh p path chunks none budget db)
    (hlen : chunks.flatten.length < 2 ^ 63) :
    (∀ root, 2 ≤ p.maxlinks → Balanced.layout fuel db = .ok (root, db') → TreeForm H (.file chunks.flatten) root.node) ∧
    (∀ root, 1 ≤ p.maxlinks → Trickle.layout fuel db = .ok (root, db') → TreeForm H (.file chunks.flatten) root) := by
  refine ⟨fun root h2 h => ?_, fun root h1 h => ?_⟩
  · by_cases hne : chunks = []
    · subst hne
      rw [C112_balanced_empty hf h2 h]
      split
      · rename_i hraw
        have hb := BalancedForm.one (inner := innerPart p) (m := p.maxlinks) (leafPart p 2 [])
        have := TreeForm.balanced (H := H) (chunks := [[]]) (.inr rfl) (by simp [AllFit]) (by simp) hb
        simpa [leafPart, hraw] using this
      · exact .empty
    · obtain ⟨hi, hp, _⟩ := Fresh.facts hf
      obtain ⟨new, ha, _⟩ := balanced_ok hf h2 h
      have hfit : AllFit chunks := by rw [← hp]; exact ha.lim
      exact .balanced (.inr rfl) hfit hlen (C112_balanced hf h2 hne (by omega) h)
  · obtain ⟨ts, new, ha, _⟩ := trickle_ok hf h1 h
    have hfit : AllFit chunks := ha.lim
    exact .trickle (.inl rfl) hfit hlen (C112_trickle hf h1 (by omega) h)

/-- C114: a published directory that is loaded, changed in any way and written again is published, if what was added is published. -/
theorem C114_edited {env env' : Env} {lg lg0 : Nat} {b : Builder} {es es' : List Spec.Entry} {ts : List (Bytes × Tree)} {st : List Node} {ops : List DOp} {thr : Int} {d : Dir} {n : Node} {c' : Cfg}
    (hv : env.Valid lg0) (hr : env.Real) (hlo : 3 ≤ lg) (hhi : lg ≤ 10) (hb : b.codec = 0x70) (h : DirForm env.H (· = lg) b es nd)
    (hu : (es.map Prod.fst).Nodup) (hne : [] ∉ es.map Prod.fst) (hst : HamtForm env.H lg b 0 es nd → ∀ x, SubShard (digits (2 ^ lg)) nd x → x ∈ st)
    (hn : NoEmptyName ops) (hs : ∀ op ∈ ops, ∀ b, op ≠ .setCidBuilder b) (hd : newDirectoryFromNode nd = .ok d)
    (hg : exec env' .getNode (execAll env ops { start d thr with st := st }) = (.node n, c'))
    (hes : Lists (mapAfter env (mapOf (es.map entryLink)) ops { start d thr with st := st }) (es'.map entryLink)) (hne' : [] ∉ es'.map Prod.fst)
    (hnames : ts.map Prod.fst = es'.map Prod.fst) (hsub : ∀ (i : Nat) t e, ts[i]? = some t → es'[i]? = some e → TreeForm env.H t.2 e.2.2) :
    TreeForm env.H (.dir ts) n := by
  obtain ⟨d', h1, _, h3⟩ := C113_published (thr := thr) hv hr hlo hhi hb h hu hne hst hn
  rw [hd] at h1
  cases h1
  have hu' := (lists_entries hes).1
  have hp := hv.hp
  cases h3 hs env' n c' es' hg hes with
  | plain hp => exact .dir hlo hhi hb (.plain hp) hu' hne' hnames hsub
  | @sharded l _ hw hl =>
    rcases hw with rfl | rfl
    · exact .dir hlo hhi hb (.sharded rfl hl) hu' hne' hnames hsub
    · exact .dir hp.lo hp.hi hb (.sharded rfl hl) hu' hne' hnames hsub

/-! ### A tree with a file, a symbolic link, a plain directory and a HAMT -/

def exSym : Node := .proto [0x08, 4, 0x12, 2, 0x2e, 0x2e] [] .v0
def exInner : Node := .proto [0x08, 1] [.mk [0x61] exTri.size exTri, .mk [0x73] exSym.size exSym] .v0
def exShard : Node := .proto [0x08, 5, 0x28, 0x22, 0x30, 0x80, 2] [] .v0
def exOuter : Node := .proto [0x08, 1] [.mk [0x64] exInner.size exInner, .mk [0x68] exShard.size exShard] .v0
def exPubTree : Tree := .dir [([0x64], .dir [([0x61], .file [1, 2, 3, 4, 5, 6]), ([0x73], .symlink [0x2e, 0x2e])]), ([0x68], .dir [])]

theorem exFile_form : TreeForm H0 (.file [1, 2, 3, 4, 5, 6]) exTri := TreeForm.trickle (x := ⟨exTri, 6⟩) (.inl rfl) exFit (by decide) exTri_form

theorem exSym_form : TreeForm H0 (.symlink [0x2e, 0x2e]) exSym := by
  have := TreeForm.symlink (H := H0) (target := [0x2e, 0x2e]) (b := .v0) (by decide)
  rw [small_str _ _ (by decide)] at this
  exact this

theorem exPubTree_form : TreeForm H0 exPubTree exOuter := by
  have f3 : TreeForm H0 (.dir [([0x61], .file [1, 2, 3, 4, 5, 6]), ([0x73], .symlink [0x2e, 0x2e])]) exInner := by
    refine .dir (lg := 8) (b := .v0) (es := [([0x61], exTri.size, exTri), ([0x73], exSym.size, exSym)]) (by omega) (by omega) rfl (.plain (List.Perm.refl _)) (by simp) (by simp) (by simp) ?_
    intro i t e ht he
    match i, ht, he with
    | 0, ht, he => cases ht; cases he; exact exFile_form
    | 1, ht, he => cases ht; cases he; exact exSym_form
  have f4 : TreeForm H0 (.dir []) exShard := by
    refine .dir (lg := 8) (b := .v0) (es := []) (by omega) (by omega) rfl (.sharded rfl exShard_form) (by simp) (by simp) (by simp) ?_
    intro i t e ht he
    simp at ht
  refine .dir (lg := 8) (b := .v0) (es := [([0x64], exInner.size, exInner), ([0x68], exShard.size, exShard)]) (by omega) (by omega) rfl (.plain (List.Perm.refl _)) (by simp) (by simp) (by simp) ?_
  intro i t e ht he
  match i, ht, he with
  | 0, ht, he => cases ht; cases he; exact f3
  | 1, ht, he => cases ht; cases he; exact f4

/-- C114: an import. -/
example : ∃ r d, Balanced.layout 3 exDB = .ok (r, d) ∧ TreeForm H0 (.file [1, 2, 3, 4, 5, 6]) r.node := by
  obtain ⟨r, d, h, _⟩ := exBalanced
  exact ⟨r, d, h, (C114_imported exFresh (by decide)).1 r (by decide) h⟩

/-- The loaded directory, and what is done with it. -/
def exInnerDir : Dir := match newDirectoryFromNode exInner with | .ok d => d | .error _ => newDirectory
def exInnerOps : List DOp := [.remove [0x73], .add [0x74] exSym]

theorem exInnerOps_quiet : quiet exEnv exInnerOps { start exInnerDir 50 with st := [] } = true := by decide +kernel
theorem exInnerOps_results : results exEnv exInnerOps { start exInnerDir 50 with st := [] } = [.done, .done] := by decide +kernel
theorem exInnerOps_node : ∃ n c', exec exEnv .getNode (execAll exEnv exInnerOps { start exInnerDir 50 with st := [] }) = (.node n, c') := by
  have h : (match (exec exEnv .getNode (execAll exEnv exInnerOps { start exInnerDir 50 with st := [] })).1 with | .node _ => true | _ => false) = true := by decide +kernel
  generalize exec exEnv .getNode (execAll exEnv exInnerOps { start exInnerDir 50 with st := [] }) = o at h ⊢
  obtain ⟨r, c'⟩ := o
  cases r with
  | node n => exact ⟨n, c', rfl⟩
  | _ => cases h

/-- C114: the directory d is loaded, the symbolic link is renamed, and the directory becomes a HAMT (the threshold is 50). -/
example : ∃ env n c', env.Valid 3 ∧ env.Real ∧ exec exEnv .getNode (execAll env exInnerOps { start exInnerDir 50 with st := [] }) = (.node n, c') ∧
    TreeForm env.H (.dir [([0x61], .file [1, 2, 3, 4, 5, 6]), ([0x74], .symlink [0x2e, 0x2e])]) n := by
  obtain ⟨env, ⟨E, B, C, he⟩, hr, _⟩ := exists_ex
  have hv : env.Valid 3 := IsEx.valid ⟨E, B, C, he⟩
  have hH : env.H = H0 := by rw [he]; rfl
  have hq := execAll_congr (E := E) (B := B) (C := C) _ _ exInnerOps_quiet
  rw [← he] at hq
  obtain ⟨n, c', hn⟩ := exInnerOps_node
  have hd : newDirectoryFromNode exInner = .ok exInnerDir := by
    have : (newDirectoryFromNode exInner).toOption.isSome = true := by decide +kernel
    unfold exInnerDir
    cases h : newDirectoryFromNode exInner with
    | ok d => rfl
    | error e => rw [h] at this; cases this
  refine ⟨env, n, c', hv, hr, by rw [hq.1]; exact hn, ?_⟩
  refine C114_edited (es := [([0x61], exTri.size, exTri), ([0x73], exSym.size, exSym)]) (es' := [([0x61], exTri.size, exTri), ([0x74], exSym.size, exSym)]) (lg := 3) (b := .v0)
    (ops := exInnerOps) (thr := 50) (st := []) (env' := exEnv) (c' := c') hv hr (by omega) (by omega) rfl (.plain (List.Perm.refl _)) (by simp) (by simp) (fun h => ?_) (by simp [NoEmptyName, exInnerOps, DOp.target])
    (by simp [exInnerOps]) hd (by rw [hq.1]; exact hn) ?_ (by simp) (by simp) ?_
  · generalize hN : (Node.proto [0x08, 1] _ Builder.v0) = N at h
    cases h with
    | mk sub hd hs => cases hN
  · have hm : mapAfter env (mapOf (([([0x61], exTri.size, exTri), ([0x73], exSym.size, exSym)] : List Spec.Entry).map entryLink)) exInnerOps { start exInnerDir 50 with st := [] }
        = mapOf (([([0x61], exTri.size, exTri), ([0x74], exSym.size, exSym)] : List Spec.Entry).map entryLink) := by
      funext k
      rw [mapAfter, hq.2, exInnerOps_results]
      simp only [exInnerOps, List.zip_cons_cons, lastWrite, List.zip_nil_left]
      by_cases e1 : [0x74] = k
      · subst e1; simp [mapOf, Link.name, entryLink, linkVal, Link.tsize, Link.target]
      · by_cases e2 : [0x73] = k
        · subst e2; simp [mapOf, Link.name, entryLink]
        · by_cases e3 : [0x61] = k
          · subst e3; simp [mapOf, Link.name, entryLink]
          · simp [e1, e2, e3, mapOf, Link.name, entryLink]
    rw [hm]
    exact lists_mapOf (by simp [entryLink, Link.name])
  · intro i t e ht he
    match i, ht, he with
    | 0, ht, he => cases ht; cases he; rw [hH]; exact exFile_form
    | 1, ht, he => cases ht; cases he; rw [hH]; exact exSym_form

/-- C114: the path d/a is resolved to the file, and the file is read. -/
example : ∃ x, (resolvePath H0 exNetAll oth 2 exOuter [[0x64], [0x61]] 0).1 = .ok x ∧ TreeForm H0 (.file [1, 2, 3, 4, 5, 6]) x ∧
    ∃ dr, newUnixfsFile exNetAll 2 x = .ok (.file dr) ∧ (FileNode.file dr).size = some 6 ∧ ∃ p, FlatRun [1, 2, 3, 4, 5, 6] 0 [.read 4] (dr.run exNetAll [.read 4]).1 p := by
  rcases C114_resolve (net := exNetAll) (oth := oth) H0_length exPubTree_form [[0x64], [0x61]] (by simp) (fuel := 2) (by simp) 0 with ⟨x, tr, h1, h2, h3⟩ | ⟨_, h2⟩ | ⟨_, h2⟩
  · have e : exPubTree.at [[0x64], [0x61]] = some (.file [1, 2, 3, 4, 5, 6]) := by simp [exPubTree, Tree.at, List.lookup]
    rw [e] at h2
    cases h2
    exact ⟨x, h1, h3, C114_open (t := 2) H0_length h3 (fun _ _ _ => rfl) [.read 4] (by intro w hw; simp at hw)⟩
  · simp [exPubTree, Tree.at, List.lookup] at h2
  · obtain ⟨u, x, _, _, h⟩ := h2
    cases h

end Unixfs.Props
