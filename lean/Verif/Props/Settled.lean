import Verif.Spec.Settled
import Verif.Props.OneTree

/-!
# C116: with settled parameters, the node of a tree is a function of the tree
-/

namespace Unixfs.Props
open Unixfs.Hamt hiding exec execAll results NoEmptyName lastWrite Cfg
open Unixfs.Dir Unixfs.File Unixfs.Spec
open Unixfs.Import hiding Cfg

variable {H : Hash} {S : Settings} {tr tr' : Tree} {nd nd' : Node}

theorem sorted_unique {ls ls' : List Link} (hp : ls.Perm ls') (h : (ls.map Link.name).Pairwise (· < ·)) (h' : (ls'.map Link.name).Pairwise (· < ·)) : ls = ls' := by
  rw [List.pairwise_map] at h h'
  exact List.Perm.eq_of_pairwise (fun a b _ _ h1 h2 => absurd h2 (List.lt_asymm h1)) h h' hp

theorem dirWith_unique {es es' : List Spec.Entry} (hp : es.Perm es') (h : DirWith H S es nd) (h' : DirWith H S es' nd') : nd = nd' := by
  unfold DirWith at h h'
  rw [← S.width_perm hp] at h'
  cases hw : S.width es with
  | none =>
    rw [hw] at h h'
    obtain ⟨ls, h1, h2, rfl⟩ := h
    obtain ⟨ls', h1', h2', rfl⟩ := h'
    rw [sorted_unique ((h1.trans (hp.map _)).trans h1'.symm) h2 h2']
  | some lg =>
    rw [hw] at h h'
    exact C111_unique h.2.2 h'.2.2 hp

/-- The tree of an entry. -/
theorem entry_tree {P : Tree → Node → Prop} {es : List Spec.Entry} {ts : List (Bytes × Tree)} (hu : (es.map Prod.fst).Nodup) (hnames : ts.map Prod.fst = es.map Prod.fst)
    (hsub : ∀ (i : Nat) t e, ts[i]? = some t → es[i]? = some e → P t.2 e.2.2) :
    (∀ e ∈ es, ∃ t, ts.lookup e.1 = some t ∧ P t e.2.2) ∧ ∀ k t, ts.lookup k = some t → ∃ e ∈ es, e.1 = k ∧ P t e.2.2 := by
  have hs : ∀ k t, ts.lookup k = some t → ∃ e ∈ es, e.1 = k ∧ P t e.2.2 := by
    intro k t h
    obtain ⟨i, hi⟩ := lookup_getElem ts k t h
    have hk : (es.map Prod.fst)[i]? = some k := by rw [← hnames, List.getElem?_map, hi]; rfl
    rw [List.getElem?_map, Option.map_eq_some_iff] at hk
    obtain ⟨e, he, rfl⟩ := hk
    exact ⟨e, List.mem_of_getElem? he, rfl, hsub i _ _ hi he⟩
  refine ⟨fun e he => ?_, hs⟩
  cases hl : ts.lookup e.1 with
  | none =>
    have hm : e.1 ∈ ts.map Prod.fst := by rw [hnames]; exact List.mem_map.mpr ⟨e, he, rfl⟩
    obtain ⟨⟨k, t⟩, ht, hk⟩ := List.mem_map.mp hm
    rw [List.lookup_eq_none_iff] at hl
    have := hl _ ht
    simp_all
  | some t =>
    obtain ⟨e', he', h1, h2⟩ := hs _ _ hl
    have : e' = e := List.inj_on_of_nodup_map hu he' he h1
    exact ⟨t, rfl, this ▸ h2⟩

/-- C116: with the same settings, the same tree has the same node. -/
theorem C116_same_node (h : TreeWith H S tr nd) (h' : TreeWith H S tr' nd') (hs : SameTree tr tr') : nd = nd' := by
  induction h generalizing tr' nd' with
  | balanced hl hcut hfit hlen h =>
    cases hs
    generalize hT : Tree.file _ = T at h'
    cases h' with
    | balanced _ _ _ _ h' => cases hT; rw [(C112_unique _ _ _ _ _).1 h h']
    | empty _ hc => cases hT; rw [hc] at h; cases h with | level h2 => simp at h2
    | trickle hl' => rw [hl] at hl'; cases hl'
    | symlink => cases hT
    | dir => cases hT
  | empty hl hc =>
    cases hs
    generalize hT : Tree.file _ = T at h'
    cases h' with
    | balanced _ _ _ _ h => cases hT; rw [hc] at h; cases h with | level h2 => simp at h2
    | empty _ hc => rfl
    | trickle hl' => rw [hl] at hl'; cases hl'
    | symlink => cases hT
    | dir => cases hT
  | trickle hl hcut hfit hlen h =>
    cases hs
    generalize hT : Tree.file _ = T at h'
    cases h' with
    | balanced hl' => rw [hl] at hl'; cases hl'
    | empty hl' => rw [hl] at hl'; cases hl'
    | trickle _ _ _ _ h' => cases hT; rw [(C112_unique _ _ _ _ _).2 h h']
    | symlink => cases hT
    | dir => cases hT
  | symlink hl =>
    cases hs
    cases h'
    rfl
  | @dir es nd ts h hu hne hsize hnames hsub ih =>
    cases hs with
    | @dir _ ts' hn hs =>
    cases h' with
    | @dir es' _ _ h' hu' hne' hsize' hnames' hsub' =>
    refine dirWith_unique ?_ h h'
    obtain ⟨a, b⟩ := entry_tree (P := fun t x => ∀ {tr' nd'}, TreeWith H S tr' nd' → SameTree t tr' → x = nd') hu hnames (fun i t e h1 h2 => ih i t e h1 h2)
    obtain ⟨a', b'⟩ := entry_tree hu' hnames' hsub'
    rw [List.perm_ext_iff_of_nodup (List.Nodup.of_map _ hu) (List.Nodup.of_map _ hu')]
    have ext : ∀ {e e' : Spec.Entry}, e.1 = e'.1 → e.2.1 = e'.2.1 → e.2.2 = e'.2.2 → e = e' := by
      rintro ⟨a, b, c⟩ ⟨a', b', c'⟩ h1 h2 h3; simp only at h1 h2 h3; rw [h1, h2, h3]
    refine fun e => ⟨fun he => ?_, fun he => ?_⟩
    · obtain ⟨t, h1, h2⟩ := a e he
      cases hl : ts'.lookup e.1 with
      | none => rw [(hn _).mpr hl] at h1; cases h1
      | some t' =>
        obtain ⟨e', he', h3, h4⟩ := b' _ _ hl
        have h5 := h2 h4 (hs _ _ _ h1 hl)
        rw [ext h3.symm (by rw [hsize e he, hsize' e' he', h5]) h5]
        exact he'
    · obtain ⟨t', h1, h2⟩ := a' e he
      cases hl : ts.lookup e.1 with
      | none => rw [(hn _).mp hl] at h1; cases h1
      | some t =>
        obtain ⟨e', he', h3, h4⟩ := b _ _ hl
        have h5 := h4 h2 (hs _ _ _ hl h1)
        rw [← ext h3 (by rw [hsize e' he', hsize' e he, h5]) h5]
        exact he'

/-- A tree with settings is published. -/
theorem C116_form (hb : S.builder.codec = 0x70) (h : TreeWith H S tr nd) : TreeForm H tr nd := by
  induction h with
  | balanced hl hcut hfit hlen h =>
    have := TreeForm.balanced (H := H) (.inr rfl) hfit (by rw [hcut]; exact hlen) h
    rwa [hcut] at this
  | empty hl hcut =>
    split
    · rename_i hraw
      have hb := BalancedForm.one (inner := innerPart S.params) (m := S.params.maxlinks) (leafPart S.params 2 [])
      have := TreeForm.balanced (H := H) (chunks := [[]]) (.inr rfl) (by simp [AllFit]) (by simp) hb
      simpa [leafPart, hraw] using this
    · exact .empty
  | trickle hl hcut hfit hlen h =>
    have := TreeForm.trickle (H := H) (.inl rfl) hfit (by rw [hcut]; exact hlen) h
    rwa [hcut] at this
  | symlink hl => exact .symlink hl
  | @dir es nd ts h hu hne hsize hnames hsub ih =>
    unfold DirWith at h
    split at h
    · obtain ⟨ls, h1, _, rfl⟩ := h
      exact .dir (lg := 8) (by omega) (by omega) hb (.plain h1) hu hne hnames ih
    · exact .dir h.1 h.2.1 hb (.sharded rfl h.2.2) hu hne hnames ih

/-- C116: with settled parameters, nodes are equal exactly when the trees are the same. -/
theorem C116_iff (hH : ∀ k, (H k).length = 8) (hb : S.builder.codec = 0x70) (h : TreeWith H S tr nd) (h' : TreeWith H S tr' nd') : nd = nd' ↔ SameTree tr tr' := by
  refine ⟨?_, C116_same_node h h'⟩
  rintro rfl
  exact C115_one_tree hH (C116_form hb h) (C116_form hb h')

/-- C116: imported files are nodes with settings. -/
theorem C116_imported {c : Bytes} {path : Option Bytes} {budget : Option Nat} {db db' : DB} {fuel : Nat} (hf : Fresh S.params path (S.cut c) none budget db)
    (hcut : (S.cut c).flatten = c) (hlen : c.length < 2 ^ 63) :
    (∀ root, S.trickle = false → 2 ≤ S.params.maxlinks → Balanced.layout fuel db = .ok (root, db') → TreeWith H S (.file c) root.node) ∧
    (∀ root, S.trickle = true → 1 ≤ S.params.maxlinks → Trickle.layout fuel db = .ok (root, db') → TreeWith H S (.file c) root) := by
  refine ⟨fun root hl h2 h => ?_, fun root hl h1 h => ?_⟩
  · by_cases hne : S.cut c = []
    · have hc : c = [] := by rw [← hcut, hne]; rfl
      subst hc
      rw [hne] at hf
      rw [C112_balanced_empty hf h2 h]
      exact .empty hl hne
    · obtain ⟨hi, hp, _⟩ := Fresh.facts hf
      obtain ⟨new, ha, _⟩ := balanced_ok hf h2 h
      have hfit : AllFit (S.cut c) := by rw [← hp]; exact ha.lim
      exact .balanced hl hcut hfit hlen (C112_balanced hf h2 hne (by rw [hcut]; omega) h)
  · obtain ⟨ts, new, ha, _⟩ := trickle_ok hf h1 h
    have hfit : AllFit (S.cut c) := ha.lim
    exact .trickle hl hcut hfit hlen (C112_trickle hf h1 (by rw [hcut]; omega) h)

theorem lastWrite_size (k : Bytes) : ∀ (h : List (DOp × DRes)) (cur : Option LinkVal), (∀ v, cur = some v → v.1 = v.2.size) →
    ∀ v, Dir.lastWrite k cur h = some v → v.1 = v.2.size
  | [], cur, hc, v, h => hc v (by simpa [Dir.lastWrite] using h)
  | (op, r) :: h, cur, hc, v, hv => by
    rw [Dir.lastWrite.eq_def] at hv
    split at hv
    · cases ‹_ = []›
    · cases ‹_ :: _ = _›
      refine lastWrite_size k h _ ?_ v hv
      intro v' hv'
      split at hv'
      · cases hv'; rfl
      · exact hc v' hv'
    · cases ‹_ :: _ = _›
      refine lastWrite_size k h _ ?_ v hv
      intro v' hv'
      split at hv'
      · cases hv'
      · exact hc v' hv'
    · cases ‹_ :: _ = _›
      exact lastWrite_size k h _ hc v hv

/-- C116: a directory made with this library is, as it is encoded, the node of its entries with the settings: `NewDirectory`, with the CID builder set or
not, then any history of other calls, of which any may fail. Whether the history leads to a HAMT is the one thing that the settings have to agree with (C50 shows
that this does depend on the history). -/
theorem C116_made {env env' : Env} {lg : Nat} {es : List Spec.Entry} {ts : List (Bytes × Tree)} {pre ops : List DOp} {thr : Int} {n : Node} {c' : Cfg}
    (hv : env.Valid lg) (hr : env.Real) (hb : S.builder.codec = 0x70) (hpre : (pre = [] ∧ S.builder = .v0) ∨ pre = [.setCidBuilder (some S.builder)]) (hn : NoEmptyName ops)
    (hs : ∀ op ∈ ops, ∀ b, op ≠ .setCidBuilder b) (hg : exec env' .getNode (execAll env (pre ++ ops) (start newDirectory thr)) = (.node n, c'))
    (hes : Lists (mapAfter env (mapOf []) (pre ++ ops) (start newDirectory thr)) (es.map entryLink)) (hne : [] ∉ es.map Prod.fst)
    (hnames : ts.map Prod.fst = es.map Prod.fst) (hsub : ∀ (i : Nat) t e, ts[i]? = some t → es[i]? = some e → TreeWith env.H S t.2 e.2.2)
    (hw : S.width es = if n.dataBytes = [0x08, 1] then none else some lg) (hnd : Encoded n nd) : TreeWith env.H S (.dir ts) nd := by
  have hp := hv.hp
  have hu := (lists_entries hes).1
  have hsize : ∀ e ∈ es, e.2.1 = e.2.2.size := by
    rintro ⟨k, v⟩ he
    exact lastWrite_size k _ _ (by simp [mapOf]) v (((lists_entries hes).2 k v).mpr he)
  have key : ∀ b : Builder, b = S.builder →
      exec env' .getNode (execAll env ops { start (.basic (.ofNode folderPBData [] b)) thr with st := [] }) = (.node n, c') →
      Lists (mapAfter env (mapOf (([] : List Spec.Entry).map entryLink)) ops { start (.basic (.ofNode folderPBData [] b)) thr with st := [] }) (es.map entryLink) →
      DirForm env.H (· = lg) S.builder es n := by
    rintro b rfl hg hes
    have hd : newDirectoryFromNode (.proto [0x08, 1] [] S.builder) = .ok (.basic (.ofNode folderPBData [] S.builder)) := by
      rw [← folder_literal]
      have hu : FSNode.fromBytes folderPBData = .ok ⟨{ typ := some TDirectory }⟩ := by decide +kernel
      simp only [newDirectoryFromNode, hu]
      rfl
    obtain ⟨d', h1, _, h3⟩ := C113_published (thr := thr) (nd := .proto [0x08, 1] [] S.builder) (es := []) (st := []) hv hr hp.lo hp.hi hb (.plain (List.Perm.refl _)) (by simp) (by simp)
      (fun h => by generalize hN : (Node.proto [0x08, 1] [] S.builder) = N at h; cases h; cases hN) hn
    rw [hd] at h1
    cases h1
    cases h3 hs env' n c' es hg hes with
    | plain h => exact .plain h
    | sharded hw h =>
      rcases hw with rfl | rfl
      · exact .sharded rfl h
      · exact .sharded rfl h
  have hf : DirForm env.H (· = lg) S.builder es n := by
    rcases hpre with ⟨rfl, h0⟩ | rfl
    · exact key .v0 h0.symm hg hes
    · refine key (Basic.empty.setCidBuilder (some S.builder)).builder ?_ hg hes
      simp [Basic.setCidBuilder, pbBuilder, withCodec_same _ hb]
  refine .dir ?_ hu hne hsize hnames hsub
  unfold DirWith
  rw [hw]
  unfold Encoded at hnd
  cases hf with
  | @plain ls h =>
    simp only [Node.dataBytes, if_true] at hnd ⊢
    obtain ⟨ls1, ls', b, h1, rfl, h3, h4⟩ := hnd
    cases h1
    exact ⟨ls', h3.trans h, h4, rfl⟩
  | @sharded l _ hl h =>
    subst hl
    have hnot : n.dataBytes ≠ [0x08, 1] := by cases h; simp [Node.dataBytes, shardBytes]
    rw [if_neg hnot] at hnd ⊢
    subst hnd
    exact ⟨hp.lo, hp.hi, h⟩

/-! ### Settings, and two histories -/

/-- The trickle layout with two links per node; directories with two entries are HAMTs. -/
def exSettings : Settings :=
  { params := exParams, trickle := true, cut := fun c => if c = [1, 2, 3, 4, 5, 6] then exChunks else [c], builder := .v0,
    width := fun es => if es.length = 2 then some 3 else none, width_perm := fun h => by rw [h.length_eq] }

theorem exFile_with : TreeWith H0 exSettings (.file [1, 2, 3, 4, 5, 6]) exTri :=
  .trickle (x := ⟨exTri, 6⟩) rfl (by decide) exFit (by decide) exTri_form

theorem exSym_with : TreeWith H0 exSettings (.symlink [0x2e, 0x2e]) exSym := by
  have := TreeWith.symlink (H := H0) (S := exSettings) (target := [0x2e, 0x2e]) (by decide)
  rw [small_str _ _ (by decide)] at this
  exact this

/-- C116: the file and the symbolic link differ, and so do their nodes. -/
example : exTri ≠ exSym := by
  rw [Ne, C116_iff H0_length rfl exFile_with exSym_with]
  intro h
  cases h

/-- C116: an import with these settings. -/
example : ∃ r d, Trickle.layout 3 exDB = .ok (r, d) ∧ TreeWith H0 exSettings (.file [1, 2, 3, 4, 5, 6]) r := by
  obtain ⟨r, d, h, _⟩ := exTrickle
  exact ⟨r, d, h, (C116_imported (S := exSettings) (c := [1, 2, 3, 4, 5, 6]) exFresh (by decide) (by decide)).2 r rfl (by decide) h⟩

/-- Two ways to make the same directory. -/
def exOps1 : List DOp := [.add [0x61] exTri, .add [0x74] exSym, .remove [0x99]]
def exOps2 : List DOp := [.add [0x74] exTri, .add [0x74] exSym, .add [0x61] exTri]

theorem exOps_quiet : quiet exEnv exOps1 (start newDirectory 50) = true ∧ quiet exEnv exOps2 (start newDirectory 50) = true := by
  constructor <;> decide +kernel
theorem exOps_results : results exEnv exOps1 (start newDirectory 50) = [.done, .done, .fail .notExist] ∧ results exEnv exOps2 (start newDirectory 50) = [.done, .done, .done] := by
  constructor <;> decide +kernel
theorem exOps_node (ops : List DOp) (h : (match (exec exEnv .getNode (execAll exEnv ops (start newDirectory 50))).1 with | .node n => decide (n.dataBytes ≠ [0x08, 1]) | _ => false) = true) :
    ∃ n c', exec exEnv .getNode (execAll exEnv ops (start newDirectory 50)) = (.node n, c') ∧ n.dataBytes ≠ [0x08, 1] := by
  generalize exec exEnv .getNode (execAll exEnv ops (start newDirectory 50)) = o at h ⊢
  obtain ⟨r, c'⟩ := o
  cases r with
  | node n => exact ⟨n, c', rfl, of_decide_eq_true h⟩
  | _ => cases h

theorem exMade_with {env : Env} (hex : IsEx env) (hr : env.Real) {ops : List DOp} (hn : NoEmptyName ops) (hs : ∀ op ∈ ops, ∀ b, op ≠ .setCidBuilder b)
    (hq : quiet exEnv ops (start newDirectory 50) = true)
    (hm : ∀ k, lastWrite k none (ops.zip (results exEnv ops (start newDirectory 50))) = mapOf (([([0x61], exTri.size, exTri), ([0x74], exSym.size, exSym)] : List Spec.Entry).map entryLink) k)
    (hnode : ∃ n c', exec exEnv .getNode (execAll exEnv ops (start newDirectory 50)) = (.node n, c') ∧ n.dataBytes ≠ [0x08, 1]) :
    ∃ n, (exec exEnv .getNode (execAll env ops (start newDirectory 50))).1 = .node n ∧
      TreeWith H0 exSettings (.dir [([0x61], .file [1, 2, 3, 4, 5, 6]), ([0x74], .symlink [0x2e, 0x2e])]) n := by
  have hv : env.Valid 3 := hex.valid
  obtain ⟨E, B, C, he⟩ := hex
  have hH : env.H = H0 := by rw [he]; rfl
  have hq := execAll_congr (E := E) (B := B) (C := C) _ _ hq
  rw [← he] at hq
  obtain ⟨n, c', hg, hd⟩ := hnode
  refine ⟨n, by rw [hq.1, hg], ?_⟩
  rw [← hH]
  refine C116_made (S := exSettings) (es := [([0x61], exTri.size, exTri), ([0x74], exSym.size, exSym)]) (pre := []) (ops := ops) (thr := 50) (env' := exEnv) (n := n) (c' := c')
    hv hr rfl (.inl ⟨rfl, rfl⟩) hn hs (by rw [List.nil_append, hq.1]; exact hg) ?_ (by simp) (by simp) ?_ (by rw [if_neg hd]; rfl) (by unfold Encoded; rw [if_neg hd])
  · have : mapAfter env (mapOf []) ([] ++ ops) (start newDirectory 50)
        = mapOf (([([0x61], exTri.size, exTri), ([0x74], exSym.size, exSym)] : List Spec.Entry).map entryLink) := by
      funext k
      rw [List.nil_append, mapAfter, hq.2]
      exact hm k
    rw [this]
    exact lists_mapOf (by simp [entryLink, Link.name])
  · intro i t e ht he
    match i, ht, he with
    | 0, ht, he => cases ht; cases he; rw [hH]; exact exFile_with
    | 1, ht, he => cases ht; cases he; rw [hH]; exact exSym_with

/-- C116: the two histories give the same HAMT. -/
example : ∃ env : Env, env.Valid 3 ∧ env.Real ∧ ∃ n, (exec exEnv .getNode (execAll env exOps1 (start newDirectory 50))).1 = .node n ∧
    (exec exEnv .getNode (execAll env exOps2 (start newDirectory 50))).1 = .node n := by
  obtain ⟨env, hex, hr, _⟩ := exists_ex
  have hm : ∀ k : Bytes, (if [0x74] = k then some (exSym.size, exSym) else if [0x61] = k then some (exTri.size, exTri) else none)
      = mapOf (([([0x61], exTri.size, exTri), ([0x74], exSym.size, exSym)] : List Spec.Entry).map entryLink) k := by
    intro k
    by_cases e1 : [0x74] = k
    · subst e1; simp [mapOf, Link.name, entryLink, linkVal, Link.tsize, Link.target]
    · by_cases e3 : [0x61] = k
      · subst e3; simp [mapOf, Link.name, entryLink, linkVal, Link.tsize, Link.target]
      · simp [e1, e3, mapOf, Link.name, entryLink]
  obtain ⟨n, h1, h2⟩ := exMade_with hex hr (ops := exOps1) (by simp [NoEmptyName, exOps1, DOp.target]) (by simp [exOps1]) exOps_quiet.1
    (fun k => by
      rw [exOps_results.1, ← hm k]
      simp only [exOps1, List.zip_cons_cons, lastWrite, List.zip_nil_left]) (exOps_node _ (by decide +kernel))
  obtain ⟨n', h1', h2'⟩ := exMade_with hex hr (ops := exOps2) (by simp [NoEmptyName, exOps2, DOp.target]) (by simp [exOps2]) exOps_quiet.2
    (fun k => by
      rw [exOps_results.2, ← hm k]
      simp only [exOps2, List.zip_cons_cons, lastWrite, List.zip_nil_left]
      by_cases e1 : [0x74] = k
      · subst e1; simp
      · simp [e1]) (exOps_node _ (by decide +kernel))
  have e := C116_same_node h2 h2' (C115_one_tree H0_length (C116_form rfl h2) (C116_form rfl h2))
  exact ⟨env, hex.valid, hr, n, h1, by rw [e]; exact h1'⟩

/-- C116: a plain directory. -/
example : TreeWith H0 exSettings (.dir [([0x61], .file [1, 2, 3, 4, 5, 6])]) (.proto [0x08, 1] [.mk [0x61] exTri.size exTri] .v0) := by
  refine .dir (es := [([0x61], exTri.size, exTri)]) ⟨[.mk [0x61] exTri.size exTri], List.Perm.refl _, by simp, rfl⟩ (by simp) (by simp) (by simp) (by simp) ?_
  intro i t e ht he
  match i, ht, he with
  | 0, ht, he => cases ht; cases he; exact exFile_with

end Unixfs.Props
