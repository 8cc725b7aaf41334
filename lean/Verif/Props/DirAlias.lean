import Verif.Dir.AliasLemmas
import Verif.Props.Dir

/-!
# What a directory has handed out, and later calls: C86

The claim would be: the node that `GetNode` has returned and the list that `Links` has returned are
snapshots, which no later call changes, and `ForEachLink` gives its function the entries that the
directory has when the loop begins, whatever the function does to the directory. The code does not have
this property: a plain directory hands out its own node and the slice of links in it. The theorems with
`_violated` show what happens, those with `_partial` what does hold.

`World` (`Dir/Alias.lean`) is the client with the memory. `w.held` is what the client has been given so
far, `w.views` what the client sees in it now. `room` is how Go grows slices; everything is for every
`room`, and for every environment (`env`): networks, schedules, hashes.
-/

namespace Unixfs.Props
open Unixfs.Hamt hiding exec execAll results NoEmptyName lastWrite Cfg
open Unixfs.Dir Unixfs.Dir.World

variable {env : Env} {room : Nat → Nat} {w : World}

/-! ### The memory and the results of calls -/

/-- C86: what the client sees in the list that `Links` returns is, at first, the result of the call, and
`Links` changes nothing that the client holds. -/
theorem C86_links_shown (hr : Reached env room w) {ls : List Link} {e : Option Err} {c' : Dir.Cfg} (he : exec env .links w.c = (.list ls e, c')) :
    (w.call env room .links).views = w.views ++ [.links ls] := by
  have hi := reached_inv hr
  have hm := hi.mem
  simp only [exec] at he
  unfold links at he
  cases hd : w.c.dir with
  | basic b =>
    rw [hd] at he
    have hown := hi.own b hd
    simp only [face, Basic.face, Prod.mk.injEq] at hown
    cases he
    have e1 : w.call env room .links = { w with held := w.held ++ [.links w.sl] } := by
      rw [call, exec, Dir.links, hd]; simp [effect, hold, hd]
    rw [e1]
    simp only [views, List.map_append, List.map_cons, List.map_nil, view]
    rw [← hown.2.1]
    rfl
  | hamt h =>
    rw [hd] at he
    cases he
    obtain ⟨hx, hm1, hf, hrd, hn⟩ := newArr_ext hm (env.enum w.c.k h.shard (fun _ => false)).got 0
    have e1 : ∃ c', w.call env room .links = { (w.newArr (env.enum w.c.k h.shard (fun _ => false)).got 0).1 with
        held := w.held ++ [.links (w.newArr (env.enum w.c.k h.shard (fun _ => false)).got 0).2], c := c' } := by
      rw [call, exec, Dir.links, hd]; simp only [effect, hold, hd, newArr, setArr]; exact ⟨_, rfl⟩
    obtain ⟨c', e1⟩ := e1
    rw [e1]
    simp only [views, List.map_append, List.map_cons, List.map_nil]
    refine congrArg₂ (· ++ ·) (List.map_congr_left fun x hxm => hx.view hm (hm.held x hxm)) ?_
    exact congrArg (fun l => [Seen.links l]) hrd

theorem toNode_proto {ref : Nat → Bool} {s : Shard} {st st' : List Node} {n : Node} (h : s.toNode ref st = (.ok n, st')) : ∃ d ls b, n = .proto d ls b := by
  cases s
  unfold Shard.toNode at h
  split at h
  · cases h
  · split at h
    · cases h
    · split at h
      · cases h
      · cases h; exact ⟨_, _, _, rfl⟩

/-- C86: the same for the node that `GetNode` returns. -/
theorem C86_node_shown (hr : Reached env room w) {n : Node} {c' : Dir.Cfg} (he : exec env .getNode w.c = (.node n, c')) :
    (w.call env room .getNode).views = w.views ++ [.node n] := by
  have hi := reached_inv hr
  have hm := hi.mem
  cases hd : w.c.dir with
  | basic b =>
    have he' := he
    simp only [exec] at he'
    unfold getNode at he'
    rw [hd] at he'
    cases he'
    have hown := hi.own b hd
    simp only [face, Basic.face, Prod.mk.injEq] at hown
    have e1 : w.call env room .getNode = { w with held := w.held ++ [.node w.me] } := by
      rw [call, he]; simp [Basic.node, effect, hold, hd]
    rw [e1]
    simp only [views, List.map_append, List.map_cons, List.map_nil, view, Basic.node]
    rw [← hown.1, ← hown.2.1, ← hown.2.2]
    rfl
  | hamt h =>
    have he' := he
    simp only [exec] at he'
    unfold getNode at he'
    rw [hd] at he'
    dsimp only at he'
    split at he'
    · rename_i nd c2 hq
      cases he'
      obtain ⟨h1, rfl⟩ := Prod.mk.inj hq
      have hp : ∃ d ls b, n = .proto d ls b := toNode_proto (Prod.ext h1 rfl)
      obtain ⟨d, ls, b, rfl⟩ := hp
      obtain ⟨hx, hm1, hq, hn, ha, hv⟩ := newObj_ext hm d ls b 0
      have e1 : ∃ c', w.call env room .getNode = { (w.newObj d ls b 0).1 with held := w.held ++ [.node w.nextObj], c := c' } := by
        rw [call, he]; simp only [effect, hold, hd, newObj, newArr, setArr, setObj]; exact ⟨_, rfl⟩
      obtain ⟨c', e1⟩ := e1
      rw [e1]
      simp only [views, List.map_append, List.map_cons, List.map_nil]
      refine congrArg₂ (· ++ ·) (List.map_congr_left fun x hxm => hx.view hm (hm.held x hxm)) ?_
      exact congrArg (fun l => [l]) hv
    · cases he'

theorem insert_at (l : Link) (a b : List Link) (ha : ∀ x ∈ a, NameLt x.name l.name) (hb : ∀ x ∈ b, ¬ NameLt x.name l.name) :
    sorted.insert l (a ++ b) = a ++ l :: b := by
  induction a with
  | nil =>
    cases b with
    | nil => rfl
    | cons x xs => rw [List.nil_append, sorted.insert, if_neg (hb x (by simp)), List.nil_append]
  | cons x xs ih =>
    rw [List.cons_append, sorted.insert, if_pos (ha x (by simp)), ih (fun y hy => ha y (by simp [hy])), List.cons_append]

/-- C86: the order into which encoding a node puts its links is the order in which they are encoded. -/
theorem C86_encode_order (d : Bytes) (ls : List Link) (b : Builder) : encoded (.proto d ls b) = .proto d (sorted ls) b := by
  have tr : ∀ x y z : Link, (!decide (NameLt y.name x.name)) = true → (!decide (NameLt z.name y.name)) = true → (!decide (NameLt z.name x.name)) = true := by
    intro x y z h1 h2
    simp only [Bool.not_eq_true', decide_eq_false_iff_not] at h1 h2 ⊢
    intro h3
    rcases Unixfs.Dir.nameLt_total x.name y.name with h | h | h
    · exact h2 (Unixfs.Dir.nameLt_trans _ _ _ h3 h)
    · exact h2 (h ▸ h3)
    · exact h1 h
  have tot : ∀ x y : Link, ((!decide (NameLt y.name x.name)) || (!decide (NameLt x.name y.name))) = true := by
    intro x y
    by_cases h : NameLt y.name x.name
    · have : ¬ NameLt x.name y.name := fun h' => Unixfs.Dir.nameLt_irrefl _ (Unixfs.Dir.nameLt_trans _ _ _ h h')
      simp [this]
    · simp [h]
  have key : ls.mergeSort (fun x y => !decide (NameLt y.name x.name)) = sorted ls := by
    induction ls with
    | nil => simp [sorted]
    | cons l ls ih =>
      obtain ⟨l₁, l₂, h1, h2, h3⟩ := List.mergeSort_cons tr tot l ls
      have hp := List.pairwise_mergeSort tr tot (l :: ls)
      rw [h1, List.pairwise_append] at hp
      rw [h1, sorted, ← ih, h2, insert_at]
      · intro x hx; simpa using h3 x hx
      · intro x hx
        have := (List.pairwise_cons.mp hp.2.1).1 x hx
        simpa using this
  rw [encoded, key]

/-- Go's slices of pointers: a slice that is full doubles, the first append makes room for one. -/
def exRoom : Nat → Nat := fun n => n - 1

def exA (k : UInt8) : AOp := .call (.add [k] (exNd k))
def exL (k : UInt8) : Link := .mk [k] 1 (exNd k)
def exW (ops : List AOp) : World := (World.new 0).after exEnv exRoom ops

theorem exW_reached (ops : List AOp) : Reached exEnv exRoom (exW ops) := reached_after (.new 0) ops

/-- C86: the hypotheses of both are met, in a directory with two entries. -/
example : (exec exEnv .links (exW [exA 2, exA 1]).c).1 = .list [exL 2, exL 1] none ∧
    (exec exEnv .getNode (exW [exA 2, exA 1]).c).1 = .node (.proto folderPBData [exL 2, exL 1] .v0) :=
  ⟨by decide +kernel, by decide +kernel⟩

/-! ### What is violated -/

/-- C86: the node that `GetNode` has returned changes with the next `AddChild`. -/
theorem C86_node_violated : ∃ w, Reached exEnv exRoom w ∧ w.views = [.node (.proto folderPBData [exL 1] .v0)] ∧
    (w.call exEnv exRoom (.add [2] (exNd 2))).views = [.node (.proto folderPBData [exL 1, exL 2] .v0)] :=
  ⟨exW [exA 1, .call .getNode], exW_reached _, by decide +kernel, by decide +kernel⟩

/-- C86: `RemoveChild` changes the list that `Links` has returned: the entry that is removed disappears
from it, and another entry is in it twice. -/
theorem C86_links_violated : ∃ w, Reached exEnv exRoom w ∧ w.views = [.links [exL 1, exL 2, exL 3]] ∧
    (w.call exEnv exRoom (.remove [1])).views = [.links [exL 2, exL 3, exL 3]] :=
  ⟨exW [exA 1, exA 2, exA 3, .call .links], exW_reached _, by decide +kernel, by decide +kernel⟩

/-- C86: after a removal, entries that are added later show up in a list that was returned before. -/
theorem C86_links_violated_add : ∃ w, Reached exEnv exRoom w ∧ w.views = [.links [exL 1, exL 2]] ∧
    (w.after exEnv exRoom [.call (.remove [2]), exA 3]).views = [.links [exL 1, exL 3]] :=
  ⟨exW [exA 1, exA 2, .call .links], exW_reached _, by decide +kernel, by decide +kernel⟩

/-- C86: even if entries are only added, encoding the node (asking it for its CID, say) replaces the
entry in a list that was returned before. -/
theorem C86_links_violated_encode : ∃ w, Reached exEnv exRoom w ∧ w.views[0]? = some (.links [exL 2, exL 3, exL 4]) ∧
    (w.after exEnv exRoom [exA 1, .call .getNode, .encode 1]).views[0]? = some (.links [exL 1, exL 2, exL 3]) :=
  ⟨exW [exA 2, exA 3, exA 4, .call .links], exW_reached _, by decide +kernel, by decide +kernel⟩

/-- C86: the loop that removes every entry it is given, in a directory of four: it is given one entry
twice and another never. -/
theorem C86_loop_violated : ∃ w, Reached exEnv exRoom w ∧ (∃ b, w.c.dir = .basic b ∧ b.links = [exL 1, exL 2, exL 3, exL 4]) ∧
    (w.forEachDo exEnv exRoom clearing).1 = [exL 1, exL 3, exL 4, exL 4] := by
  refine ⟨exW [exA 1, exA 2, exA 3, exA 4], exW_reached _, ?_, by decide +kernel⟩
  obtain ⟨d, h1, h2, -⟩ := view_some (show Props.view (exW [exA 1, exA 2, exA 3, exA 4]).c.dir = some ([exL 1, exL 2, exL 3, exL 4], 140) by decide +kernel)
  exact ⟨d, h1, h2⟩

/-- C86: in every plain directory with three entries or more, the loop that removes every entry it is given
is never given the second one, which is still there at the end. -/
theorem C86_loop_violated_always (hr : Reached env room w) {b : Basic} (hb : w.c.dir = .basic b) {a x y : Link} {more : List Link}
    (hl : b.links = a :: x :: y :: more) (hn : (b.links.map Link.name).Nodup) :
    x ∉ (w.forEachDo env room clearing).1 ∧ ∃ b', (w.forEachDo env room clearing).2.c.dir = .basic b' ∧ x ∈ b'.links := by
  have hi := reached_inv hr
  have hown := hi.own b hb
  simp only [face, Basic.face, Prod.mk.injEq] at hown
  have hrd : w.read w.sl = a :: x :: y :: more := hown.2.1.trans hl
  have hlen : w.sl.len = more.length + 3 := by
    have h1 : (w.read w.sl).length = w.sl.len := by rw [World.read, List.length_take]; exact Nat.min_eq_left hi.mem.sl.2
    rw [← h1, hrd]; rfl
  rw [hl] at hn
  simp only [List.map_cons, List.nodup_cons, List.mem_cons, List.mem_map, not_or, not_exists, not_and] at hn
  obtain ⟨⟨hax, hay, ham⟩, ⟨hxy, hxm⟩, -⟩ := hn
  have hget : (w.read w.sl)[0]? = some a := by rw [hrd]; rfl
  have hfil : (w.read w.sl).filter (fun l => l.name ≠ a.name) = x :: y :: more := by
    rw [hrd, List.filter_cons_of_neg (by simp), List.filter_cons_of_pos (by simpa using Ne.symm hax), List.filter_cons_of_pos (by simpa using Ne.symm hay),
      List.filter_eq_self.mpr (fun l hl => by simpa using ham l hl)]
  have hm : Missed (w.call env room (.remove a.name)) w.sl x := by
    have hi' := step_inv env room hi (.call (.remove a.name))
    obtain ⟨hB, hc⟩ := call_remove (env := env) (room := room) (name := a.name) hi ⟨b, hb⟩
    have hc' : ∃ c', w.call env room (.remove a.name) = { w.removeLink a.name with c := c' } := by
      rcases hc with ⟨c', e⟩ | h
      · exfalso
        have hsome : (b.getNodeLink a.name).isSome = true := by
          rw [Basic.getNodeLink, hl]; simp
        obtain ⟨b', hb'⟩ := hB
        have e2 := hi'.own b' hb'
        change face (w.call env room (.remove a.name)) = _ at e2
        have hcc : (w.call env room (.remove a.name)).c = (exec env (.remove a.name) w.c).2 := by
          obtain ⟨_, -, -, -, -, -, h⟩ := call_goes env room (.remove a.name) hi; exact h
        rw [e, face_c] at e2
        have hb2 : (exec env (.remove a.name) w.c).2.dir = .basic b' := by rw [← hcc]; exact hb'
        simp only [exec, removeChild, hb] at hb2
        cases hrm : b.removeChild a.name with
        | mk r b1 =>
          rw [hrm] at hb2
          rcases bremove_face hrm with ⟨-, rfl, hf⟩ | ⟨hs, -, -⟩
          · cases hb2
            have h3 := (congrArg (fun p => p.2.1.length) e2)
            rw [hf] at h3
            simp only [face] at h3
            rw [← hown.2.1, hfil, hrd] at h3
            simp at h3
          · rw [hs] at hsome; cases hsome
      · exact h
    obtain ⟨c', e⟩ := hc'
    obtain ⟨hl1, hf1⟩ := removeLink_goes hi.mem a.name
    have hsl : (w.removeLink a.name).sl = ⟨w.sl.arr, ((w.read w.sl).filter (fun l => l.name ≠ a.name)).length⟩ := by
      simp [removeLink, setSl, setArr, setObj, World.sl]
    refine ⟨hi', hB, ?_, ?_, ?_, ?_, ?_⟩
    · rw [e]; exact hl1.fits hi.mem.sl
    · rw [e]; change _ = (w.removeLink a.name).sl.arr; rw [hsl]
    · rw [e]; change (w.removeLink a.name).sl.len ≤ _; rw [hsl, hfil, hlen]; simp
    · rw [e]; change ∃ tl, (w.removeLink a.name).read w.sl = _ ∧ _
      rw [removeLink_read hi.mem a.name rfl (le_refl _), hfil, hrd]
      refine ⟨y :: more ++ (a :: x :: y :: more).drop (more.length + 2), rfl, ?_⟩
      intro l hl'
      have : l ∈ y :: more := by
        rcases List.mem_append.mp hl' with h | h
        · exact h
        · have e3 : (a :: x :: y :: more).drop (more.length + 2) = (y :: more).drop more.length := by simp
          rw [e3] at h
          exact List.mem_of_mem_drop h
      rcases List.mem_cons.mp this with rfl | h
      · exact Ne.symm hxy
      · exact hxm l h
    · rw [e]; change ∃ tl, (w.removeLink a.name).read (w.removeLink a.name).sl = _
      have := congrArg (fun p => p.2.1) hf1
      simp only [face] at this
      rw [this, hfil]
      exact ⟨_, rfl⟩
  obtain ⟨h1, h2⟩ := each_missed (env := env) (room := room) (s := w.sl) (x := x) (more.length + 2) 1 _ (le_refl 1) hm
  have e : w.forEachDo env room clearing = (a :: (each env room clearing w.sl (more.length + 2) 1 (w.call env room (.remove a.name))).1,
      (each env room clearing w.sl (more.length + 2) 1 (w.call env room (.remove a.name))).2) := by
    rw [forEachDo, hlen, each, hget]; rfl
  rw [e]
  refine ⟨?_, ?_⟩
  · intro hx
    rcases List.mem_cons.mp hx with rfl | hx
    · exact hax rfl
    · exact h1 x hx rfl
  · obtain ⟨b', hb'⟩ := h2.basic
    obtain ⟨tl, ht⟩ := h2.live
    have hown' := h2.inv.own b' hb'
    simp only [face, Basic.face, Prod.mk.injEq] at hown'
    exact ⟨b', hb', by rw [← hown'.2.1, ht]; simp⟩

/-! ### What holds -/

/-- C86, missing: lists of a directory from which entries are removed or replaced, or whose node is
encoded, later on. The list that `Links` has returned does not change while the calls only add new names
and look things up; also if the directory becomes a HAMT, or is loaded anew. -/
theorem C86_links_partial (hr : Reached env room w) {ls : List Link} {e : Option Err} {c' : Dir.Cfg} (he : exec env .links w.c = (.list ls e, c'))
    {ops : List AOp} (hq : Quiet env room (w.call env room .links) ops) :
    ((w.call env room .links).after env room ops).views[w.held.length]? = some (.links ls) := by
  have hi := reached_inv hr
  have hsh := C86_links_shown hr he
  have hi' := step_inv env room hi (.call .links)
  obtain ⟨t, ht⟩ := held_after (env := env) (room := room) hi' ops
  have hat : (w.call env room .links).views[w.held.length]? = some (.links ls) := by
    rw [hsh, List.getElem?_append_right (by simp [views])]; simp [views]
  have hget : ∃ s, (w.call env room .links).held[w.held.length]? = some (.links s) ∧ (s.arr = (w.call env room .links).sl.arr → s.len ≤ (w.call env room .links).sl.len) := by
    simp only [exec] at he
    unfold links at he
    cases hd : w.c.dir with
    | basic b =>
      have e1 : w.call env room .links = { w with held := w.held ++ [.links w.sl] } := by
        rw [call, exec, Dir.links, hd]; simp [effect, hold, hd]
      rw [e1]
      exact ⟨w.sl, by simp, fun _ => le_refl _⟩
    | hamt h =>
      have e1 : ∃ c' ls, w.call env room .links = { (w.newArr ls 0).1 with held := w.held ++ [.links (w.newArr ls 0).2], c := c' } := by
        rw [call, exec, Dir.links, hd]; simp only [effect, hold, hd]; exact ⟨_, _, rfl⟩
      obtain ⟨c', ls', e1⟩ := e1
      rw [e1]
      refine ⟨(w.newArr ls' 0).2, by simp, fun h => ?_⟩
      have h1 : (w.newArr ls' 0).2.arr = w.nextArr := rfl
      have h2 : w.sl.arr < w.nextArr := hi.mem.sl.1
      have h3 : (w.newArr ls' 0).2.arr = w.sl.arr := h
      omega
  obtain ⟨s, hs, hle⟩ := hget
  have hfit : (w.call env room .links).Fits s := hi'.mem.held _ (List.mem_of_getElem? hs)
  obtain ⟨h1, -, -⟩ := after_quiet hi' hq hfit hle
  rw [views, List.getElem?_map, hs] at hat
  have hlt : w.held.length < (w.call env room .links).held.length := (List.getElem?_eq_some_iff.mp hs).1
  change ((w.call env room .links).after env room ops).held = (w.call env room .links).held ++ t at ht
  rw [views, List.getElem?_map, ht, List.getElem?_append_left hlt, hs]
  simp only [Option.map_some, Option.some.injEq] at hat ⊢
  rw [← hat]
  exact congrArg Seen.links h1

/-- C86, missing: what was handed out while the directory is plain and stays so. Once the directory is a HAMT,
no call ever changes what the client holds by then, even if the directory becomes plain again. -/
theorem C86_hamt_partial (hr : Reached env room w) (hh : w.c.dir.IsHamt) {ops : List AOp} (hc : OnlyCalls ops) :
    ∃ t, (w.after env room ops).views = w.views ++ t := by
  have hi := reached_inv hr
  obtain ⟨t, ht⟩ := held_after (env := env) (room := room) hi ops
  have ha : w.Away w.nextObj w.nextArr := ⟨le_refl _, le_refl _, fun ⟨b, hb⟩ => by obtain ⟨h, hh⟩ := hh; rw [hb] at hh; cases hh⟩
  obtain ⟨h1, h2⟩ := after_away (env := env) (room := room) hi ha hc
  refine ⟨t.map (w.after env room ops).view, ?_⟩
  rw [views, ht, List.map_append, views]
  exact congrArg (· ++ _) (List.map_congr_left fun x hx => view_same h1 h2 (below_all hi.mem (hi.mem.held x hx)))

/-- C86, missing: as for `C86_hamt_partial`. When the client goes on with a directory loaded from the node of the
old one, nothing that the client holds changes any more. -/
theorem C86_reload_partial (hr : Reached env room w) {c' : Dir.Cfg} (he : exec env .reload w.c = (.done, c')) {ops : List AOp} (hc : OnlyCalls ops) :
    ∃ t, (w.after env room (.call .reload :: ops)).views = w.views ++ t := by
  have hi := reached_inv hr
  have hi' := step_inv env room hi (.call .reload)
  obtain ⟨t, ht⟩ := held_after (env := env) (room := room) hi (.call .reload :: ops)
  have key : (w.call env room .reload).Away w.nextObj w.nextArr ∧ (∀ o < w.nextObj, (w.call env room .reload).objs o = w.objs o) ∧
      (∀ a < w.nextArr, (w.call env room .reload).arrs a = w.arrs a) := by
    have e1 : w.call env room .reload = { w.effect room .reload w.c.dir c'.dir with c := c' } := by rw [call, he]; rfl
    rw [e1]
    cases hd' : c'.dir with
    | hamt h =>
      have e2 : w.effect room .reload w.c.dir (.hamt h) = w := by unfold effect; split <;> first | rfl | simp_all
      rw [e2]
      refine ⟨⟨le_refl _, le_refl _, ?_⟩, fun _ _ => rfl, fun _ _ => rfl⟩
      rintro ⟨b, hb⟩
      rw [hd'] at hb; cases hb
    | basic b =>
      have e2 : w.effect room .reload w.c.dir (.basic b) = w.fresh b (room b.links.length) := by
        cases w.c.dir <;> rfl
      rw [e2]
      obtain ⟨hx, hm1, hme, ha, hf, hhe⟩ := fresh_goes hi.mem b (room b.links.length)
      exact ⟨⟨hx.nextObj, hx.nextArr, fun _ => ⟨le_of_eq hme.symm, le_of_eq ha.symm⟩⟩, hx.objs, hx.arrs⟩
  obtain ⟨ha, h1, h2⟩ := key
  obtain ⟨h3, h4⟩ := after_away (env := env) (room := room) (ops := ops) hi' ha hc
  refine ⟨t.map (w.after env room (.call .reload :: ops)).view, ?_⟩
  rw [views, ht, List.map_append, views]
  refine congrArg (· ++ _) (List.map_congr_left fun x hx => ?_)
  exact view_same (fun o ho => (h3 o ho).trans (h1 o ho)) (fun a h => (h4 a h).trans (h2 a h)) (below_all hi.mem (hi.mem.held x hx))

/-- C86: the node given to `NewDirectoryFromNode` is never changed by the directory. -/
theorem C86_given {n : Node} {thr : Int} (h : fromNode room n thr = .ok w) {ops : List AOp} (hc : OnlyCalls ops) :
    (w.after env room ops).views[0]? = some (.node n) := by
  obtain ⟨hi, hh, hv, hme, h1, h2, h3⟩ := fromNode_inv h
  obtain ⟨h4, h5⟩ := after_away (env := env) (room := room) (O := 1) (A := 1) hi ⟨h1, h2, hme⟩ hc
  obtain ⟨t, ht⟩ := held_after (env := env) (room := room) hi ops
  rw [views, List.getElem?_map, ht, hh]
  simp only [List.singleton_append, List.getElem?_cons_zero, Option.map_some]
  rw [view_same h4 h5 (show w.Below 1 1 (.node 0) from ⟨Nat.one_pos, by rw [h3]; exact Nat.one_pos⟩), hv]

/-- C86: the node of a directory that stays plain is always up to date: it is what `GetNode` would return now. -/
theorem C86_live (hr : Reached env room w) {ops : List AOp} (hp : StaysPlain env room (w.call env room .getNode) ops) (hb : w.c.dir.IsBasic) :
    ∃ n, (exec env .getNode ((w.call env room .getNode).after env room ops).c).1 = .node n ∧
      ((w.call env room .getNode).after env room ops).views[w.held.length]? = some (.node n) := by
  have hi := reached_inv hr
  have hi' := step_inv env room hi (.call .getNode)
  obtain ⟨b, hb⟩ := hb
  have e1 : w.call env room .getNode = { w with held := w.held ++ [.node w.me] } := by
    rw [call, exec, Dir.getNode, hb]; simp [Basic.node, effect, hold, hb]
  obtain ⟨hme, b', hb'⟩ := after_plain hi' hp
  obtain ⟨t, ht⟩ := held_after (env := env) (room := room) hi' ops
  have hi2 := after_inv env room hi' ops
  have hown := hi2.own b' hb'
  refine ⟨b'.node, ?_, ?_⟩
  · change (exec env .getNode (after env room (w.step env room (.call .getNode)) ops).c).1 = _
    rw [exec, getNode, hb']
  · change (after env room (w.step env room (.call .getNode)) ops).views[w.held.length]? = _
    have hh : (w.step env room (.call .getNode)).held = w.held ++ [.node w.me] := by
      change (w.call env room .getNode).held = _; rw [e1]
    have hm2 : (w.step env room (.call .getNode)).me = w.me := by
      change (w.call env room .getNode).me = _; rw [e1]
    rw [views, List.getElem?_map, ht, hh]
    simp only [List.append_assoc, List.singleton_append, List.length_append]
    rw [List.getElem?_append_right (le_refl _)]
    simp only [Nat.sub_self, List.getElem?_cons_zero, Option.map_some, Option.some.injEq]
    rw [hm2] at hme
    simp only [face, Basic.face, Prod.mk.injEq, hme] at hown
    simp only [World.view, Basic.node]
    rw [← hown.1, ← hown.2.1, ← hown.2.2, World.sl, hme]

/-- C86, missing: loops whose function removes or replaces entries, or encodes the node. If the function only adds
new names and looks things up, it is given the entries at the beginning of the loop, each once and in order.
`P i` is what the client knows before the `i`-th call of the function. -/
theorem C86_loop_partial (hr : Reached env room w) {b : Basic} (hb : w.c.dir = .basic b) {cb : Nat → Link → List AOp} (P : Nat → World → Prop)
    (h0 : P 0 w) (hcb : ∀ i l w, P i w → Quiet env room w (cb i l) ∧ P (i + 1) (w.after env room (cb i l))) :
    (w.forEachDo env room cb).1 = b.links := by
  have hi := reached_inv hr
  have hown := hi.own b hb
  simp only [face, Basic.face, Prod.mk.injEq] at hown
  rw [forEachDo, each_quiet hcb w.sl.len 0 w hi hi.mem.sl (fun _ => le_refl _) (Nat.zero_add _) h0, List.drop_zero, hown.2.1]

/-! ### The hypotheses are met -/

theorem exW_links {ops : List AOp} {ls : List Link} {n : Int} (h : Props.view (exW ops).c.dir = some (ls, n)) {name : Bytes} (hn : name ∉ ls.map Link.name) :
    ¬ (exW ops).c.dir.Plain name := by
  obtain ⟨d, h1, h2, -⟩ := view_some h
  rintro ⟨b, l, hb, hl, rfl⟩
  rw [h1] at hb
  cases hb
  rw [h2] at hl
  exact hn (List.mem_map_of_mem hl)

/-- `C86_links_partial`: `Links`, then a new entry and a lookup. -/
example : Quiet exEnv exRoom ((exW [exA 2, exA 1]).call exEnv exRoom .links) [exA 3, .call (.find [2])] ∧
    (((exW [exA 2, exA 1]).call exEnv exRoom .links).after exEnv exRoom [exA 3, .call (.find [2])]).views = [.links [exL 2, exL 1]] := by
  refine ⟨⟨⟨_, rfl, ?_⟩, ⟨_, rfl, ?_⟩, trivial⟩, by decide +kernel⟩
  · intro name hn
    cases hn
    exact exW_links (ops := [exA 2, exA 1, .call .links]) (ls := [exL 2, exL 1]) (n := 70) (by decide +kernel) (by decide)
  · intro name hn; cases hn

/-- `C86_hamt_partial`: a list, the directory becomes a HAMT, and entries of the list are removed and replaced. -/
example : ((World.new 50).after exEnv exRoom [exA 1, .call .links, .call .getNode, exA 2]).c.dir.IsHamt ∧
    OnlyCalls [.call (.remove [1]), .call (.add [2] (exNd 9))] ∧
    ((World.new 50).after exEnv exRoom [exA 1, .call .links, .call .getNode, exA 2, .call (.remove [1]), .call (.add [2] (exNd 9))]).views =
      [.links [exL 1], .node (.proto folderPBData [exL 1] .v0)] := by
  refine ⟨view_none (by decide +kernel), ?_, by decide +kernel⟩
  intro op hop
  simp only [List.mem_cons, List.not_mem_nil, or_false] at hop
  rcases hop with rfl | rfl <;> exact ⟨_, rfl⟩

/-- `C86_reload_partial`: the directory is loaded anew, and changed. -/
example : (exec exEnv .reload (exW [exA 1, exA 2, .call .links]).c).1 = .done ∧
    ((exW [exA 1, exA 2, .call .links]).after exEnv exRoom [.call .reload, .call (.remove [1])]).views = [.links [exL 1, exL 2]] :=
  ⟨by decide +kernel, by decide +kernel⟩

/-- `C86_given`: a directory is loaded from a node and emptied. -/
example : ∃ w, fromNode exRoom (.proto folderPBData [exL 1, exL 2] .v0) 0 = .ok w ∧
    (w.after exEnv exRoom [.call (.remove [1]), .call (.remove [2]), .call .getNode]).views =
      [.node (.proto folderPBData [exL 1, exL 2] .v0), .node (.proto folderPBData [] .v0)] := by
  have hd : newDirectoryFromNode (.proto folderPBData [exL 1, exL 2] .v0) = .ok (.basic (.ofNode folderPBData [exL 1, exL 2] .v0)) := by
    rw [newDirectoryFromNode, folder_isDir.choose_spec.1]
    dsimp only
    rw [if_pos folder_isDir.choose_spec.2]
  unfold fromNode
  rw [hd]
  exact ⟨_, rfl, by decide +kernel⟩

/-- `C86_live`: `GetNode`, then changes, and the node is encoded. -/
example : StaysPlain exEnv exRoom ((exW [exA 2]).call exEnv exRoom .getNode) [exA 1, .encode 0, .call (.remove [2])] ∧
    (((exW [exA 2]).call exEnv exRoom .getNode).after exEnv exRoom [exA 1, .encode 0]).views = [.node (.proto folderPBData [exL 1, exL 2] .v0)] := by
  have h : ∀ ops ls n, Props.view (exW ops).c.dir = some (ls, n) → (exW ops).c.dir.IsBasic := by
    intro ops ls n h
    obtain ⟨d, h1, -⟩ := view_some h
    exact ⟨d, h1⟩
  refine ⟨⟨h [exA 2, .call .getNode] [exL 2] 35 (by decide +kernel), by simp [exA], h [exA 2, .call .getNode, exA 1] [exL 2, exL 1] 70 (by decide +kernel), by simp,
    h [exA 2, .call .getNode, exA 1, .encode 0] [exL 1, exL 2] 70 (by decide +kernel), by simp,
    h [exA 2, .call .getNode, exA 1, .encode 0, .call (.remove [2])] [exL 1] 35 (by decide +kernel)⟩, by decide +kernel⟩

/-- `C86_loop_partial`: the function adds an entry when it is given the first one, and looks things up. -/
example : ((exW [exA 2, exA 1]).forEachDo exEnv exRoom (fun i _ => if i = 0 then [exA 3] else [.call (.find [2])])).1 = [exL 2, exL 1] := by
  obtain ⟨d, h1, h2, -⟩ := view_some (show Props.view (exW [exA 2, exA 1]).c.dir = some ([exL 2, exL 1], 70) by decide +kernel)
  rw [C86_loop_partial (exW_reached _) h1 (fun i w => i = 0 → w = exW [exA 2, exA 1]) (fun _ => rfl), h2]
  intro i l w hP
  refine ⟨?_, by simp⟩
  by_cases hi : i = 0
  · rw [if_pos hi, hP hi]
    refine ⟨⟨_, rfl, ?_⟩, trivial⟩
    intro name hn
    cases hn
    exact exW_links (ls := [exL 2, exL 1]) (n := 70) (by decide +kernel) (by decide)
  · rw [if_neg hi]
    refine ⟨⟨_, rfl, ?_⟩, trivial⟩
    intro name hn; cases hn

/-- `C86_loop_violated_always`: the directory of `C86_loop_violated`, where the second entry is left. -/
example : (([exL 1, exL 2, exL 3, exL 4] : List Link).map Link.name).Nodup ∧
    Props.view ((exW [exA 1, exA 2, exA 3, exA 4]).forEachDo exEnv exRoom clearing).2.c.dir = some ([exL 2], 35) :=
  ⟨by decide, by decide +kernel⟩

end Unixfs.Props
