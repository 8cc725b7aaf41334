import Verif.Spec.OneTree
import Verif.Props.TreePublished

/-!
# C115: a node stands for one tree, and trees made with this library are published
-/

namespace Unixfs.Props
open Unixfs.Hamt hiding exec execAll results NoEmptyName lastWrite Cfg
open Unixfs.Dir Unixfs.File Unixfs.Spec
open Unixfs.Import hiding Cfg

variable {H : Hash} {tr tr' : Tree} {nd : Node}

theorem lookup_sizeOf : ∀ {ts : List (Bytes × Tree)} {k : Bytes} {t : Tree}, ts.lookup k = some t → sizeOf t < sizeOf ts
  | [], _, _, h => by simp at h
  | (k', t') :: ts, k, t, h => by
    rw [List.lookup_cons] at h
    simp only [List.cons.sizeOf_spec, Prod.mk.sizeOf_spec]
    split at h
    · cases h; omega
    · have := lookup_sizeOf h; omega

/-- Entries of a published directory have names. -/
theorem form_named {ts : List (Bytes × Tree)} (h : TreeForm H (.dir ts) nd) : ts.lookup [] = none := by
  cases h with
  | @dir lg b es _ _ hlo hhi hb h hu hne hnames hsub =>
    cases hl : ts.lookup [] with
    | none => rfl
    | some t =>
      obtain ⟨i, hi⟩ := lookup_getElem ts [] t hl
      exact absurd (by rw [← hnames]; exact List.mem_map.mpr ⟨_, List.mem_of_getElem? hi, rfl⟩) hne

/-- What is under a name of a published directory, as everybody who can fetch resolves it. -/
theorem form_child (hH : ∀ k, (H k).length = 8) {ts : List (Bytes × Tree)} (h : TreeForm H (.dir ts) nd) {k : Bytes} (hk : k ≠ []) :
    match (resolvePath H (fun _ _ => true) (fun _ _ => .error .notExist) 1 nd [k] 0).1 with
    | .ok x => ∃ t, ts.lookup k = some t ∧ TreeForm H t x
    | .error _ => ts.lookup k = none := by
  have hat : (Tree.dir ts).at [k] = ts.lookup k := by
    rw [Tree.at]
    cases ts.lookup k with
    | none => rfl
    | some t => simp [Tree.at]
  rcases C114_resolve (net := fun _ _ => true) (oth := fun _ _ => .error .notExist) hH h [k] (by simpa using hk) (fuel := 1) (by simp) 0 with
    ⟨x, t, h1, h2, h3⟩ | ⟨h1, h2⟩ | ⟨_, h2⟩
  · rw [h1]; exact ⟨t, by rw [← hat]; exact h2, h3⟩
  · rw [h1]; rw [← hat]; exact h2
  · obtain ⟨_, _, _, _, h⟩ := h2; cases h

/-- C115: a node is the published form of one tree only: whatever the parameters and the layouts, nodes of different trees are different. -/
theorem C115_one_tree (hH : ∀ k, (H k).length = 8) (h : TreeForm H tr nd) (h' : TreeForm H tr' nd) : SameTree tr tr' := by
  have go : ∀ (n : Nat) (tr tr' : Tree) (nd : Node), sizeOf tr ≤ n → TreeForm H tr nd → TreeForm H tr' nd → SameTree tr tr' := by
    intro n
    induction n with
    | zero => intro tr _ _ hn; cases tr <;> simp at hn
    | succ n ih =>
      intro tr tr' nd hn h h'
      have o := C114_open (net := fun _ _ => true) (t := 0) hH h (fun _ _ _ => rfl)
      have o' := C114_open (net := fun _ _ => true) (t := 0) hH h' (fun _ _ _ => rfl)
      cases tr with
      | file c =>
        obtain ⟨dr, o, _⟩ := o [] (by intro w hw; simp at hw)
        cases tr' with
        | file c' =>
          have h1 := (file_facts h).2.2.1
          rw [(file_facts h').2.2.1] at h1
          cases h1
          exact .file _
        | symlink t => dsimp only at o'; rw [o] at o'; cases o'
        | dir es => obtain ⟨d, o', _⟩ := o'; rw [o] at o'; cases o'
      | symlink t =>
        dsimp only at o
        cases tr' with
        | file c' => obtain ⟨dr, o', _⟩ := o' [] (by intro w hw; simp at hw); rw [o] at o'; cases o'
        | symlink t' => dsimp only at o'; rw [o] at o'; cases o'; exact .symlink _
        | dir es => obtain ⟨d, o', _⟩ := o'; rw [o] at o'; cases o'
      | dir es =>
        obtain ⟨d, o, _⟩ := o
        cases tr' with
        | file c' => obtain ⟨dr, o', _⟩ := o' [] (by intro w hw; simp at hw); rw [o] at o'; cases o'
        | symlink t' => dsimp only at o'; rw [o] at o'; cases o'
        | dir es' =>
          refine .dir (fun k => ?_) (fun k t t' hk hk' => ?_)
          · by_cases hk : k = []
            · subst hk; simp [form_named h, form_named h']
            · have c := form_child hH h hk
              have c' := form_child hH h' hk
              split at c
              · rename_i x hx
                rw [hx] at c'
                obtain ⟨t, c, _⟩ := c
                obtain ⟨t', c', _⟩ := c'
                simp [c, c']
              · rename_i x hx
                rw [hx] at c'
                dsimp only at c'
                simp [c, c']
          · have hk0 : k ≠ [] := by rintro rfl; rw [form_named h] at hk; cases hk
            have c := form_child hH h hk0
            have c' := form_child hH h' hk0
            split at c
            · rename_i x hx
              rw [hx] at c'
              obtain ⟨t1, c1, c2⟩ := c
              obtain ⟨t1', c1', c2'⟩ := c'
              rw [hk] at c1; cases c1
              rw [hk'] at c1'; cases c1'
              have := lookup_sizeOf hk
              simp only [Tree.dir.sizeOf_spec] at hn
              exact ih t t' x (by omega) c2 c2'
            · rw [hk] at c; cases c
  exact go _ tr tr' nd (Nat.le_refl _) h h'

/-- C115: a directory made with this library is published: `NewDirectory`, `SetCidBuilder` or not, then any history of other calls, of which any may
fail. The entries are those of the history; what was added has to be published. -/
theorem C115_made {env env' : Env} {lg : Nat} {es : List Spec.Entry} {ts : List (Bytes × Tree)} {pre ops : List DOp} {thr : Int} {n : Node} {c' : Cfg}
    (hv : env.Valid lg) (hr : env.Real) (hpre : pre = [] ∨ ∃ b, pre = [.setCidBuilder b]) (hn : NoEmptyName ops) (hs : ∀ op ∈ ops, ∀ b, op ≠ .setCidBuilder b)
    (hg : exec env' .getNode (execAll env (pre ++ ops) (start newDirectory thr)) = (.node n, c'))
    (hes : Lists (mapAfter env (mapOf []) (pre ++ ops) (start newDirectory thr)) (es.map entryLink)) (hne : [] ∉ es.map Prod.fst)
    (hnames : ts.map Prod.fst = es.map Prod.fst) (hsub : ∀ (i : Nat) t e, ts[i]? = some t → es[i]? = some e → TreeForm env.H t.2 e.2.2) :
    TreeForm env.H (.dir ts) n := by
  have hp := hv.hp
  have key : ∀ b : Builder, b.codec = 0x70 →
      exec env' .getNode (execAll env ops { start (.basic (.ofNode folderPBData [] b)) thr with st := [] }) = (.node n, c') →
      Lists (mapAfter env (mapOf (([] : List Spec.Entry).map entryLink)) ops { start (.basic (.ofNode folderPBData [] b)) thr with st := [] }) (es.map entryLink) →
      TreeForm env.H (.dir ts) n := by
    intro b hb hg hes
    have hd : newDirectoryFromNode (.proto [0x08, 1] [] b) = .ok (.basic (.ofNode folderPBData [] b)) := by
      rw [← folder_literal]
      have hu : FSNode.fromBytes folderPBData = .ok ⟨{ typ := some TDirectory }⟩ := by decide +kernel
      simp only [newDirectoryFromNode, hu]
      rfl
    exact C114_edited (nd := .proto [0x08, 1] [] b) (es := []) hv hr hp.lo hp.hi hb (.plain (List.Perm.refl _)) (by simp) (by simp)
      (fun h => by generalize hN : (Node.proto [0x08, 1] [] b) = N at h; cases h; cases hN) hn hs hd hg hes hne hnames hsub
  rcases hpre with rfl | ⟨bd, rfl⟩
  · exact key .v0 rfl hg hes
  · refine key (Basic.empty.setCidBuilder bd).builder ?_ hg hes
    simp only [Basic.setCidBuilder, pbBuilder, Builder.withCodec]
    split
    · rename_i h; exact h.symm
    · rfl

/-- C115: a file that was imported with the options of a modifier and edited in any number of sessions (C106) is published. -/
theorem C115_sessions {p : Params} {n : Node} {chunks : List Bytes} (hp : AsModified p) (h : InSessions p n chunks) (hlen : chunks.flatten.length < 2 ^ 63) :
    TreeForm H (.file chunks.flatten) n := by
  obtain ⟨_, _, _, _, hfit⟩ := sessions_tree hp h
  exact TreeForm.trickle (x := ⟨n, _⟩) (.inl rfl) hfit hlen (C112_sessions hp h (by omega))

example : TreeForm H0 (.file [1, 21, 30]) (longTrickle true (some longBuilder) [[1, 21], [30]]) :=
  C115_sessions ⟨rfl, by decide, by decide⟩ exSessions (by decide)

/-- C115: `exOuter` is also the form of the tree with its entries the other way round, and of no tree with other entries, like the empty directory. -/
example : ∃ tr, TreeForm H0 tr exOuter ∧ tr ≠ exPubTree ∧ SameTree exPubTree tr ∧ ¬ TreeForm H0 (.dir []) exOuter ∧ ∀ c, ¬ TreeForm H0 (.file c) exOuter := by
  have f3 : TreeForm H0 (.dir [([0x61], .file [1, 2, 3, 4, 5, 6]), ([0x73], .symlink [0x2e, 0x2e])]) exInner := by
    refine .dir (lg := 8) (b := .v0) (es := [([0x61], exTri.size, exTri), ([0x73], exSym.size, exSym)]) (by omega) (by omega) rfl (.plain (List.Perm.refl _)) (by simp) (by simp) (by simp) ?_
    intro i t e ht he
    match i, ht, he with
    | 0, ht, he => cases ht; cases he; exact exFile_form
    | 1, ht, he => cases ht; cases he; exact exSym_form
  have f4 : TreeForm H0 (.dir []) exShard := by
    refine .dir (lg := 8) (b := .v0) (es := []) (by omega) (by omega) rfl (.sharded rfl exShard_form) (by simp) (by simp) (by simp) ?_
    intro i t e ht he
    simp at ht
  have f5 : TreeForm H0 (.dir [([0x68], .dir []), ([0x64], .dir [([0x61], .file [1, 2, 3, 4, 5, 6]), ([0x73], .symlink [0x2e, 0x2e])])]) exOuter := by
    refine .dir (lg := 8) (b := .v0) (es := [([0x68], exShard.size, exShard), ([0x64], exInner.size, exInner)]) (by omega) (by omega) rfl (.plain (List.Perm.swap _ _ _)) (by simp) (by simp) (by simp) ?_
    intro i t e ht he
    match i, ht, he with
    | 0, ht, he => cases ht; cases he; exact f4
    | 1, ht, he => cases ht; cases he; exact f3
  refine ⟨_, f5, by simp [exPubTree], C115_one_tree H0_length exPubTree_form f5, fun h => ?_, fun c h => ?_⟩
  · have := C115_one_tree H0_length f5 h
    cases this with
    | dir hn hs => simpa [List.lookup] using hn [0x68]
  · have := C115_one_tree H0_length f5 h
    cases this

/-- `NewDirectory`, `SetCidBuilder`, and calls that make it a HAMT. -/
def exMadePre : List DOp := [.setCidBuilder (some ⟨1, 0x70, 0x12, 32⟩)]
def exMadeOps : List DOp := [.add [0x61] exTri, .add [0x74] exSym, .remove [0x99]]

theorem exMade_quiet : quiet exEnv (exMadePre ++ exMadeOps) (start newDirectory 50) = true := by decide +kernel
theorem exMade_results : results exEnv (exMadePre ++ exMadeOps) (start newDirectory 50) = [.done, .done, .done, .fail .notExist] := by decide +kernel
theorem exMade_node : ∃ n c', exec exEnv .getNode (execAll exEnv (exMadePre ++ exMadeOps) (start newDirectory 50)) = (.node n, c') := by
  have h : (match (exec exEnv .getNode (execAll exEnv (exMadePre ++ exMadeOps) (start newDirectory 50))).1 with | .node _ => true | _ => false) = true := by decide +kernel
  generalize exec exEnv .getNode (execAll exEnv (exMadePre ++ exMadeOps) (start newDirectory 50)) = o at h ⊢
  obtain ⟨r, c'⟩ := o
  cases r with
  | node n => exact ⟨n, c', rfl⟩
  | _ => cases h

/-- C115: the HAMT that is made like that. -/
example : ∃ env n c', env.Valid 3 ∧ env.Real ∧ exec exEnv .getNode (execAll env (exMadePre ++ exMadeOps) (start newDirectory 50)) = (.node n, c') ∧
    TreeForm env.H (.dir [([0x61], .file [1, 2, 3, 4, 5, 6]), ([0x74], .symlink [0x2e, 0x2e])]) n := by
  obtain ⟨env, ⟨E, B, C, he⟩, hr, _⟩ := exists_ex
  have hv : env.Valid 3 := IsEx.valid ⟨E, B, C, he⟩
  have hH : env.H = H0 := by rw [he]; rfl
  have hq := execAll_congr (E := E) (B := B) (C := C) _ _ exMade_quiet
  rw [← he] at hq
  obtain ⟨n, c', hn⟩ := exMade_node
  refine ⟨env, n, c', hv, hr, by rw [hq.1]; exact hn, ?_⟩
  refine C115_made (es := [([0x61], exTri.size, exTri), ([0x74], exSym.size, exSym)]) (pre := exMadePre) (ops := exMadeOps) (thr := 50) (env' := exEnv) (c' := c')
    hv hr (.inr ⟨_, rfl⟩) (by simp [NoEmptyName, exMadeOps, DOp.target]) (by simp [exMadeOps]) (by rw [hq.1]; exact hn) ?_ (by simp) (by simp) ?_
  · have hm : mapAfter env (mapOf []) (exMadePre ++ exMadeOps) (start newDirectory 50)
        = mapOf (([([0x61], exTri.size, exTri), ([0x74], exSym.size, exSym)] : List Spec.Entry).map entryLink) := by
      funext k
      rw [mapAfter, hq.2, exMade_results]
      simp only [exMadePre, exMadeOps, List.cons_append, List.nil_append, List.zip_cons_cons, lastWrite, List.zip_nil_left]
      by_cases e1 : [0x74] = k
      · subst e1; simp [mapOf, Link.name, entryLink, linkVal, Link.tsize, Link.target]
      · by_cases e3 : [0x61] = k
        · subst e3; simp [mapOf, Link.name, entryLink, linkVal, Link.tsize, Link.target]
        · simp [e1, e3, mapOf, Link.name, entryLink]
    rw [hm]
    exact lists_mapOf (by simp [entryLink, Link.name])
  · intro i t e ht he
    match i, ht, he with
    | 0, ht, he => cases ht; cases he; rw [hH]; exact exFile_form
    | 1, ht, he => cases ht; cases he; rw [hH]; exact exSym_form

end Unixfs.Props
