import Verif.Spec.DirAlias
import Verif.Dir.Lemmas

/-!
# Lemmas about `Dir/Alias.lean`

The definitions in this file belong to proofs; they model no code.
-/

namespace Unixfs.Dir
open Unixfs.Hamt

/-! ## What calls do to a plain directory -/

/-- What of a plain directory is in its node. -/
def Basic.face (b : Basic) : Bytes × List Link × Builder := (b.data, b.links, b.builder)

theorem rm_est_face (b : Basic) (name : Bytes) (x : Node) : (b.removeFromEstimatedSize name x).face = b.face := by
  unfold Basic.removeFromEstimatedSize
  dsimp only
  split
  · rw [compute_eq]; rfl
  · rfl

theorem bremove_face {b b' : Basic} {name : Bytes} {r : Except Err Unit} (h : b.removeChild name = (r, b')) :
    ((b.getNodeLink name).isSome = true ∧ r = .ok () ∧ b'.face = (b.data, b.links.filter (fun l => l.name ≠ name), b.builder)) ∨
    ((b.getNodeLink name).isSome = false ∧ r = .error .notExist ∧ b' = b) := by
  unfold Basic.removeChild at h
  cases hg : b.getNodeLink name with
  | none => rw [hg] at h; cases h; exact .inr ⟨rfl, rfl, rfl⟩
  | some l =>
    rw [hg] at h; cases h
    refine .inl ⟨rfl, rfl, ?_⟩
    have := rm_est_face b l.name l.target
    simp only [Basic.face, Prod.mk.injEq] at this ⊢
    refine ⟨this.1, ?_, this.2.2⟩
    rw [this.2.1]

theorem badd_face {b b' : Basic} {name : Bytes} {nd : Node} {r : Except Err Unit} (h : b.addChild name nd = (r, b')) :
    r = .ok () ∧ b'.face = (b.data, (if (b.getNodeLink name).isSome then b.links.filter (fun l => l.name ≠ name) else b.links) ++ [.mk name nd.size nd], b.builder) := by
  unfold Basic.addChild Basic.addLinkChild at h
  cases hr : b.removeChild name with
  | mk r1 b1 =>
    rw [hr] at h
    rcases bremove_face hr with ⟨hs, rfl, hf⟩ | ⟨hs, rfl, rfl⟩
    · cases h
      refine ⟨rfl, ?_⟩
      simp only [Basic.face, Prod.mk.injEq] at hf ⊢
      simp only [Basic.addToEstimatedSize, hs, if_true, hf.1, hf.2.1, hf.2.2, makeLink]
      exact ⟨trivial, rfl, trivial⟩
    · simp only [ne_eq, not_true, if_false] at h
      cases h
      refine ⟨rfl, ?_⟩
      simp only [Basic.face, Basic.addToEstimatedSize, hs, makeLink]
      rfl

theorem getNode_dir (env : Env) (c : Cfg) : (getNode env c).2.dir = c.dir := by
  unfold getNode; split <;> first | rfl | (rename_i h; rw [h])

theorem addChild_plain {env : Env} {c c' : Cfg} {b : Basic} {name : Bytes} {nd : Node} {r : Except Err Unit} (h : addChild env c name nd = (r, c'))
    (hb : c.dir = .basic b) : (∃ e, r = .error e ∧ c'.dir = c.dir) ∨ (r = .ok () ∧ c'.dir.IsHamt) ∨
      (r = .ok () ∧ ∃ b', c'.dir = .basic b' ∧ b.addChild name nd = (.ok (), b')) := by
  unfold addChild at h
  rw [hb] at h
  dsimp only at h
  split at h
  · cases ha : b.addChild name nd with
    | mk r1 b1 =>
      rw [ha] at h
      obtain ⟨rfl, -⟩ := badd_face ha
      cases h
      exact .inr (.inr ⟨rfl, b1, rfl, rfl⟩)
  · cases hs : b.switchToSharding env c.t with
    | mk r1 t1 =>
      rw [hs] at h
      cases r1 with
      | error e => cases h; exact .inl ⟨e, rfl, hb.symm⟩
      | ok h1 =>
        dsimp only at h
        split at h
        · cases h; exact .inl ⟨_, rfl, hb.symm⟩
        · cases h; exact .inr (.inl ⟨rfl, _, rfl⟩)

theorem addChild_hamt {env : Env} {c c' : Cfg} {name : Bytes} {nd : Node} {e : Err} (h : addChild env c name nd = (.error e, c'))
    (hh : c.dir.IsHamt) : c'.dir.IsHamt := by
  obtain ⟨hd, hh⟩ := hh
  unfold addChild at h
  rw [hh] at h
  dsimp only at h
  split at h
  · cases h; exact ⟨_, rfl⟩
  · split at h
    · cases h; exact ⟨_, rfl⟩
    · split at h
      · cases h; exact ⟨_, rfl⟩
      · cases h
  · obtain ⟨-, rfl⟩ := Prod.mk.inj h; exact ⟨_, rfl⟩

theorem removeChild_hamt {env : Env} {c c' : Cfg} {name : Bytes} {e : Err} (h : removeChild env c name = (.error e, c'))
    (hh : c.dir.IsHamt) : c'.dir.IsHamt := by
  obtain ⟨hd, hh⟩ := hh
  unfold removeChild at h
  rw [hh] at h
  dsimp only at h
  split at h
  · cases h; exact ⟨_, rfl⟩
  · obtain ⟨-, rfl⟩ := Prod.mk.inj h; exact ⟨_, rfl⟩
  · split at h
    · cases h; exact ⟨_, rfl⟩
    · split at h
      · cases h; exact ⟨_, rfl⟩
      · cases h

/-- `NewDirectoryFromNode` of the node of a plain directory, if it works. -/
theorem reload_plain {b : Basic} {d : Dir} (h : newDirectoryFromNode b.node = .ok d) : d.IsHamt ∨ ∃ b', d = .basic b' ∧ b'.face = b.face := by
  unfold newDirectoryFromNode Basic.node at h
  dsimp only at h
  split at h
  · cases h
  · split at h
    · cases h
      exact .inr ⟨_, rfl, by rw [ofNode_eq]; rfl⟩
    · split at h
      · split at h
        · cases h
        · cases h; exact .inl ⟨_, rfl⟩
      · cases h

/-- What each call does to a plain directory. -/
theorem exec_from_plain {env : Env} {op : DOp} {c c' : Cfg} {r : DRes} {b : Basic} (h : exec env op c = (r, c')) (hb : c.dir = .basic b) :
    ((∃ e, r = .fail e) ∧ c'.dir = .basic b) ∨ ((∀ e, r ≠ .fail e) ∧ (c'.dir.IsHamt ∨ ∃ b', c'.dir = .basic b' ∧
    match op with
    | .add name nd => b'.face = (b.data, (if (b.getNodeLink name).isSome then b.links.filter (fun l => l.name ≠ name) else b.links) ++ [.mk name nd.size nd], b.builder)
    | .remove name => (b.getNodeLink name).isSome = true ∧ b'.face = (b.data, b.links.filter (fun l => l.name ≠ name), b.builder)
    | .setCidBuilder _ => b'.data = b.data ∧ b'.links = b.links
    | .reload => b'.face = b.face
    | _ => b' = b)) := by
  cases op with
  | add name nd =>
    simp only [exec] at h
    cases ha : addChild env c name nd with
    | mk r1 c1 =>
      rw [ha] at h
      rcases addChild_plain ha hb with ⟨e, rfl, hc⟩ | ⟨rfl, hc⟩ | ⟨rfl, b', hc, ha'⟩
      · cases h; exact .inl ⟨⟨e, rfl⟩, hc.trans hb⟩
      · cases h; exact .inr ⟨fun e => by simp, .inl hc⟩
      · cases h; exact .inr ⟨fun e => by simp, .inr ⟨b', hc, (badd_face ha').2⟩⟩
  | remove name =>
    simp only [exec] at h
    unfold removeChild at h
    rw [hb] at h
    dsimp only at h
    cases ha : b.removeChild name with
    | mk r1 b1 =>
      rw [ha] at h
      rcases bremove_face ha with ⟨hs, rfl, hf⟩ | ⟨hs, rfl, rfl⟩
      · cases h; exact .inr ⟨fun e => by simp, .inr ⟨b1, rfl, hs, hf⟩⟩
      · cases h; exact .inl ⟨⟨_, rfl⟩, rfl⟩
  | find name =>
    simp only [exec] at h
    unfold find at h
    rw [hb] at h
    dsimp only at h
    cases ha : b.find env name c.t with
    | mk r1 t1 =>
      rw [ha] at h
      cases r1 with
      | error e => cases h; exact .inl ⟨⟨e, rfl⟩, rfl⟩
      | ok x => cases h; exact .inr ⟨fun e => by simp, .inr ⟨b, rfl, rfl⟩⟩
  | links =>
    simp only [exec] at h
    unfold links at h
    rw [hb] at h
    cases h; exact .inr ⟨fun e => by simp, .inr ⟨b, hb, rfl⟩⟩
  | forEach cb =>
    simp only [exec] at h
    unfold forEachLink at h
    rw [hb] at h
    cases h; exact .inr ⟨fun e => by simp, .inr ⟨b, hb, rfl⟩⟩
  | getNode =>
    simp only [exec] at h
    unfold getNode at h
    rw [hb] at h
    cases h; exact .inr ⟨fun e => by simp, .inr ⟨b, hb, rfl⟩⟩
  | reload =>
    simp only [exec] at h
    unfold getNode at h
    rw [hb] at h
    dsimp only at h
    split at h
    · rename_i d hd
      cases h
      rcases reload_plain hd with hh | ⟨b', rfl, hf⟩
      · exact .inr ⟨fun e => by simp, .inl hh⟩
      · exact .inr ⟨fun e => by simp, .inr ⟨b', rfl, hf⟩⟩
    · cases h; exact .inl ⟨⟨_, rfl⟩, hb⟩
  | setCidBuilder x =>
    simp only [exec] at h
    unfold setCidBuilder at h
    rw [hb] at h
    cases h; exact .inr ⟨fun e => by simp, .inr ⟨_, rfl, rfl, rfl⟩⟩
  | setThreshold n =>
    cases h; exact .inr ⟨fun e => by simp, .inr ⟨b, hb, rfl⟩⟩

/-- A call that fails leaves a HAMT a HAMT. -/
theorem exec_fail_hamt {env : Env} {op : DOp} {c c' : Cfg} {e : Err} (h : exec env op c = (.fail e, c')) (hh : c.dir.IsHamt) : c'.dir.IsHamt := by
  cases op with
  | add name nd =>
    simp only [exec] at h
    split at h
    · cases h
    · rename_i ha; cases h; exact addChild_hamt ha hh
  | remove name =>
    simp only [exec] at h
    split at h
    · cases h
    · rename_i ha; cases h; exact removeChild_hamt ha hh
  | find name =>
    obtain ⟨hd, hh⟩ := hh
    simp only [exec] at h
    unfold find at h
    rw [hh] at h
    dsimp only at h
    split at h
    · cases h
    · rename_i ha; cases h; obtain ⟨-, rfl⟩ := Prod.mk.inj ha; exact ⟨_, rfl⟩
  | links => simp only [exec] at h; cases h
  | forEach cb => simp only [exec] at h; cases h
  | getNode =>
    have := getNode_dir env c
    simp only [exec] at h
    split at h
    · cases h
    · rename_i ha; cases h; rw [ha] at this; exact this ▸ hh
  | reload =>
    have := getNode_dir env c
    simp only [exec] at h
    split at h
    · rename_i ha; cases h; rw [ha] at this; exact this ▸ hh
    · rename_i ha
      rw [ha] at this
      split at h
      · cases h
      · cases h; exact this ▸ hh
  | setCidBuilder x => cases h
  | setThreshold n => cases h

namespace World

/-! ## Memory -/

/-- The slice is inside an array. -/
def Fits (w : World) (s : Slice) : Prop := s.arr < w.nextArr ∧ s.len ≤ (w.arrs s.arr).length

/-- Something that the client holds is there. -/
def There (w : World) : Held → Prop
  | .node o => o < w.nextObj
  | .links s => w.Fits s

/-- The memory is in order. -/
structure Mem (w : World) : Prop where
  me : w.me < w.nextObj
  objs : ∀ o < w.nextObj, w.Fits (w.objs o).sl
  apart : ∀ o < w.nextObj, ∀ p < w.nextObj, o ≠ p → (w.objs o).sl.arr ≠ (w.objs p).sl.arr
  held : ∀ h ∈ w.held, w.There h

/-- What is in the node of the directory. -/
def face (w : World) : Bytes × List Link × Builder := ((w.objs w.me).data, w.read w.sl, (w.objs w.me).builder)

/-- The memory is in order, and the node of a plain directory is what the directory is. -/
structure Inv (w : World) : Prop where
  mem : w.Mem
  own : ∀ b, w.c.dir = .basic b → w.face = b.face

/-- Only the node of the directory and the array under it have changed. -/
structure Local (w w' : World) : Prop where
  me : w'.me = w.me
  nextObj : w'.nextObj = w.nextObj
  nextArr : w.nextArr ≤ w'.nextArr
  held : w'.held = w.held
  objs : ∀ o, o ≠ w.me → w'.objs o = w.objs o
  arrs : ∀ a < w.nextArr, a ≠ w.sl.arr → w'.arrs a = w.arrs a
  len : (w.arrs w.sl.arr).length ≤ (w'.arrs w.sl.arr).length
  sl : w'.Fits w'.sl
  move : w'.sl.arr = w.sl.arr ∨ w.nextArr ≤ w'.sl.arr

/-- Only new things have been made; what the client holds is as before, with something more. -/
structure Extends (w w' : World) : Prop where
  nextObj : w.nextObj ≤ w'.nextObj
  nextArr : w.nextArr ≤ w'.nextArr
  objs : ∀ o < w.nextObj, w'.objs o = w.objs o
  arrs : ∀ a < w.nextArr, w'.arrs a = w.arrs a

theorem Mem.sl {w : World} (h : w.Mem) : w.Fits w.sl := h.objs _ h.me

theorem Local.refl {w : World} (h : w.Mem) : Local w w :=
  ⟨rfl, rfl, le_refl _, rfl, fun _ _ => rfl, fun _ _ _ => rfl, le_refl _, h.sl, .inl rfl⟩

theorem Local.fits {w w' : World} (h : Local w w') {s : Slice} (hs : w.Fits s) : w'.Fits s := by
  refine ⟨lt_of_lt_of_le hs.1 h.nextArr, ?_⟩
  by_cases ha : s.arr = w.sl.arr
  · exact le_trans hs.2 (by rw [ha]; exact h.len)
  · rw [h.arrs _ hs.1 ha]; exact hs.2

theorem Local.mem {w w' : World} (h : Local w w') (hm : w.Mem) : w'.Mem := by
  have hobj : ∀ o, o < w'.nextObj → o ≠ w'.me → w'.objs o = w.objs o ∧ (w.objs o).sl.arr ≠ w'.sl.arr := by
    intro o ho hne
    rw [h.me] at hne
    rw [h.nextObj] at ho
    refine ⟨h.objs o hne, ?_⟩
    rcases h.move with hq | hq
    · rw [hq]; exact hm.apart o ho _ hm.me hne
    · have := (hm.objs o ho).1; omega
  refine ⟨by rw [h.me, h.nextObj]; exact hm.me, ?_, ?_, ?_⟩
  · intro o ho
    by_cases hne : o = w'.me
    · rw [hne]; exact h.sl
    · rw [(hobj o ho hne).1]; exact h.fits (hm.objs o (by rw [h.nextObj] at ho; exact ho))
  · intro o ho p hp hop
    by_cases h1 : o = w'.me
    · have h2 : p ≠ w'.me := fun hp => hop (h1.trans hp.symm)
      rw [(hobj p hp h2).1, h1]; exact (hobj p hp h2).2.symm
    · by_cases h2 : p = w'.me
      · rw [(hobj o ho h1).1, h2]; exact (hobj o ho h1).2
      · rw [(hobj o ho h1).1, (hobj p hp h2).1]
        rw [h.nextObj] at ho hp
        exact hm.apart o ho p hp hop
  · intro x hx
    rw [h.held] at hx
    have := hm.held x hx
    cases x with
    | node o => rw [There, h.nextObj]; exact this
    | links s => exact h.fits this

theorem Local.trans {a b c : World} (h1 : Local a b) (h2 : Local b c) (hm : a.Mem) : Local a c := by
  refine ⟨h2.me.trans h1.me, h2.nextObj.trans h1.nextObj, le_trans h1.nextArr h2.nextArr, h2.held.trans h1.held, ?_, ?_, ?_, h2.sl, ?_⟩
  · intro o ho
    rw [h2.objs o (by rw [h1.me]; exact ho), h1.objs o ho]
  · intro x hx hne
    rw [h2.arrs x (lt_of_lt_of_le hx h1.nextArr) ?_, h1.arrs x hx hne]
    rcases h1.move with hq | hq
    · rw [hq]; exact hne
    · omega
  · refine le_trans h1.len ?_
    by_cases hq : a.sl.arr = b.sl.arr
    · rw [hq]; exact h2.len
    · rw [h2.arrs _ (lt_of_lt_of_le hm.sl.1 h1.nextArr) hq]
  · rcases h2.move with hq | hq
    · rw [hq]; exact h1.move
    · exact .inr (le_trans h1.nextArr hq)

/-! ### Changes of the directory's node -/

theorem setBuilder_goes {w : World} (hm : w.Mem) (b : Builder) :
    Local w (w.setObj w.me { w.objs w.me with builder := b }) ∧ (w.setObj w.me { w.objs w.me with builder := b }).face = ((w.objs w.me).data, w.read w.sl, b) := by
  have hsl : (w.setObj w.me { w.objs w.me with builder := b }).sl = w.sl := by simp [World.sl, setObj]
  refine ⟨⟨rfl, rfl, le_refl _, rfl, ?_, fun _ _ _ => rfl, le_refl _, ?_, .inl (by rw [hsl])⟩, ?_⟩
  · intro o ho; simp [setObj, ho]
  · rw [hsl]; exact hm.sl
  · rw [face, hsl]; simp [setObj, read]

theorem removeLink_goes {w : World} (hm : w.Mem) (name : Bytes) :
    Local w (w.removeLink name) ∧ (w.removeLink name).face = ((w.objs w.me).data, (w.read w.sl).filter (fun l => l.name ≠ name), (w.objs w.me).builder) := by
  have hle : ((w.read w.sl).filter (fun l => l.name ≠ name)).length ≤ (w.arrs w.sl.arr).length := by
    refine le_trans (List.length_filter_le _ _) ?_
    simp [read]
  have hsl : (w.removeLink name).sl = ⟨w.sl.arr, ((w.read w.sl).filter (fun l => l.name ≠ name)).length⟩ := by
    simp [removeLink, setSl, setArr, setObj, World.sl]
  have harr : (w.removeLink name).arrs w.sl.arr = (w.read w.sl).filter (fun l => l.name ≠ name) ++
      (w.arrs w.sl.arr).drop ((w.read w.sl).filter (fun l => l.name ≠ name)).length := by
    simp [removeLink, setSl, setArr, setObj]
  have hlen : ((w.removeLink name).arrs w.sl.arr).length = (w.arrs w.sl.arr).length := by
    rw [harr, List.length_append, List.length_drop]; omega
  refine ⟨⟨rfl, rfl, le_refl _, rfl, ?_, ?_, by rw [hlen], ?_, .inl (by rw [hsl])⟩, ?_⟩
  · intro o ho; simp [removeLink, setSl, setArr, setObj, ho]
  · intro a _ ha; simp [removeLink, setSl, setArr, setObj, ha]
  · rw [hsl]; exact ⟨hm.sl.1, by rw [hlen]; exact hle⟩
  · rw [face, hsl, read, harr]
    simp [removeLink, setSl, setArr, setObj]

theorem addLink_goes {w : World} (hm : w.Mem) (room : Nat → Nat) (l : Link) :
    Local w (w.addLink room l) ∧ (w.addLink room l).face = ((w.objs w.me).data, w.read w.sl ++ [l], (w.objs w.me).builder) ∧
    (∀ s : Slice, w.Fits s → (s.arr = w.sl.arr → s.len ≤ w.sl.len) → (w.addLink room l).read s = w.read s) ∧ ((w.addLink room l).sl.arr = w.sl.arr → w.sl.len ≤ (w.addLink room l).sl.len) := by
  have hrl : (w.read w.sl).length = w.sl.len := by simp [read]; exact hm.sl.2
  by_cases hc : w.sl.len < (w.arrs w.sl.arr).length
  · have e : w.addLink room l = (w.setArr w.sl.arr ((w.arrs w.sl.arr).set w.sl.len l)).setSl ⟨w.sl.arr, w.sl.len + 1⟩ := by rw [addLink, if_pos hc]
    have hsl : (w.addLink room l).sl = ⟨w.sl.arr, w.sl.len + 1⟩ := by rw [e]; simp [setSl, setArr, setObj, World.sl]
    have harr : (w.addLink room l).arrs w.sl.arr = (w.arrs w.sl.arr).set w.sl.len l := by rw [e]; simp [setSl, setArr, setObj]
    refine ⟨⟨by rw [e]; rfl, by rw [e]; rfl, by rw [e]; exact le_refl _, by rw [e]; rfl, ?_, ?_, by rw [harr]; simp, ?_, .inl (by rw [hsl])⟩, ?_, ?_, ?_⟩
    · intro o ho; rw [e]; simp [setSl, setArr, setObj, ho]
    · intro a _ ha; rw [e]; simp [setSl, setArr, setObj, ha]
    · rw [hsl]; exact ⟨by rw [e]; exact hm.sl.1, by rw [harr, List.length_set]; exact hc⟩
    · rw [face, hsl, read, harr, e]
      have : List.take (w.sl.len + 1) ((w.arrs w.sl.arr).set w.sl.len l) = w.read w.sl ++ [l] := by
        rw [List.take_add_one, List.take_set_of_le (le_refl _), read]
        simp [hc]
      simp [setSl, setArr, setObj, this]
    · intro s _ hs
      by_cases ha : s.arr = w.sl.arr
      · rw [read, ha, harr, List.take_set_of_le (hs ha), read, ha]
      · rw [read, e]; simp [setSl, setArr, setObj, ha, read]
    · rw [hsl]; intro _; simp
  · have hlen : w.sl.len = (w.arrs w.sl.arr).length := by have := hm.sl.2; omega
    have e : w.addLink room l = (w.newArr (w.read w.sl ++ [l]) (room w.sl.len)).1.setSl (w.newArr (w.read w.sl ++ [l]) (room w.sl.len)).2 := by rw [addLink, if_neg hc]
    have hne : w.nextArr ≠ w.sl.arr := by have := hm.sl.1; omega
    have hsl : (w.addLink room l).sl = ⟨w.nextArr, w.sl.len + 1⟩ := by rw [e]; simp [newArr, setSl, setArr, setObj, World.sl]; exact hrl
    have harr : (w.addLink room l).arrs w.nextArr = (w.read w.sl ++ [l]) ++ List.replicate (room w.sl.len) (.mk [] 0 (.other [])) := by
      rw [e]; simp [newArr, setSl, setArr, setObj]
    have hold : ∀ a < w.nextArr, (w.addLink room l).arrs a = w.arrs a := by
      intro a ha; rw [e]; simp [newArr, setSl, setArr, setObj]; intro h; omega
    have hnx : (w.addLink room l).nextArr = w.nextArr + 1 := by rw [e]; rfl
    refine ⟨⟨by rw [e]; rfl, by rw [e]; rfl, by rw [hnx]; omega, by rw [e]; rfl, ?_, fun a ha _ => hold a ha, by rw [hold _ hm.sl.1], ?_, .inr (by rw [hsl])⟩, ?_, ?_, ?_⟩
    · intro o ho; rw [e]; simp [newArr, setSl, setArr, setObj, ho]
    · rw [hsl]; refine ⟨by rw [hnx]; exact Nat.lt_succ_self _, ?_⟩
      rw [harr]; simp [hrl]
    · rw [face, hsl, read, harr, List.take_append_of_le_length (by simp [hrl]), List.take_of_length_le (by simp [hrl]), e]
      simp [newArr, setSl, setArr, setObj]
    · intro s hs _; rw [read, hold _ hs.1, read]
    · rw [hsl]; intro hq; exact absurd hq hne

/-! ### New things -/

theorem newArr_ext {w : World} (hm : w.Mem) (ls : List Link) (k : Nat) :
    Extends w (w.newArr ls k).1 ∧ (w.newArr ls k).1.Mem ∧ (w.newArr ls k).1.Fits (w.newArr ls k).2 ∧ (w.newArr ls k).1.read (w.newArr ls k).2 = ls ∧
    (w.newArr ls k).1.nextArr = w.nextArr + 1 := by
  have hold : ∀ a < w.nextArr, (w.newArr ls k).1.arrs a = w.arrs a := by
    intro a ha; simp [newArr, setArr]; intro h; omega
  have hx : Extends w (w.newArr ls k).1 := ⟨le_refl _, Nat.le_succ _, fun _ _ => rfl, hold⟩
  have hf : ∀ s, w.Fits s → (w.newArr ls k).1.Fits s := fun s hs => ⟨Nat.lt_succ_of_lt hs.1, by rw [hold _ hs.1]; exact hs.2⟩
  refine ⟨hx, ⟨hm.me, fun o ho => hf _ (hm.objs o ho), hm.apart, ?_⟩, ⟨Nat.lt_succ_self _, by simp [newArr, setArr]⟩, by simp [newArr, setArr, read], rfl⟩
  intro h hh
  have := hm.held h hh
  cases h with
  | node o => exact this
  | links s => exact hf s this

theorem newObj_ext {w : World} (hm : w.Mem) (d : Bytes) (ls : List Link) (b : Builder) (k : Nat) :
    Extends w (w.newObj d ls b k).1 ∧ (w.newObj d ls b k).1.Mem ∧ (w.newObj d ls b k).2 = w.nextObj ∧ (w.newObj d ls b k).1.nextObj = w.nextObj + 1 ∧
    ((w.newObj d ls b k).1.objs w.nextObj).sl.arr = w.nextArr ∧ (w.newObj d ls b k).1.view (.node w.nextObj) = .node (.proto d ls b) := by
  obtain ⟨hx, hm1, hf, hr, hn⟩ := newArr_ext hm ls k
  have ho : ∀ o < w.nextObj, (w.newObj d ls b k).1.objs o = w.objs o := by
    intro o ho; have hq : o ≠ w.nextObj := by omega
    simp only [newObj, setObj, if_neg hq]; rfl
  have hme : (w.newObj d ls b k).1.objs w.nextObj = ⟨d, (w.newArr ls k).2, b⟩ := by simp [newObj, setObj]
  have harr : ∀ s, (w.newArr ls k).1.Fits s → (w.newObj d ls b k).1.Fits s := fun s hs => hs
  have hlt : ∀ o < w.nextObj, (w.objs o).sl.arr ≠ (w.newArr ls k).2.arr := by
    intro o ho; have := (hm.objs o ho).1; simp only [newArr]; omega
  refine ⟨⟨Nat.le_succ _, hx.nextArr, ho, hx.arrs⟩, ⟨Nat.lt_succ_of_lt hm.me, ?_, ?_, ?_⟩, rfl, rfl, by rw [hme]; rfl, ?_⟩
  · intro o hlo
    by_cases hq : o = w.nextObj
    · rw [hq, hme]; exact harr _ hf
    · have hlo' : o < w.nextObj := by have : o < w.nextObj + 1 := hlo; omega
      rw [ho o hlo']; exact harr _ (hm1.objs o hlo')
  · intro o hlo p hlp hne
    by_cases hq : o = w.nextObj
    · have hp : p < w.nextObj := by have : p < w.nextObj + 1 := hlp; omega
      rw [hq, hme, ho p hp]; exact (hlt p hp).symm
    · have hlo' : o < w.nextObj := by have : o < w.nextObj + 1 := hlo; omega
      by_cases hq' : p = w.nextObj
      · rw [hq', hme, ho o hlo']; exact hlt o hlo'
      · have hp : p < w.nextObj := by have : p < w.nextObj + 1 := hlp; omega
        rw [ho o hlo', ho p hp]; exact hm.apart o hlo' p hp hne
  · intro h hh
    have := hm1.held h hh
    cases h with
    | node o => exact Nat.lt_succ_of_lt this
    | links s => exact harr s this
  · have hrd : (w.newObj d ls b k).1.read (w.newArr ls k).2 = ls := hr
    simp only [view, hme, hrd]

theorem fresh_goes {w : World} (hm : w.Mem) (b : Basic) (k : Nat) :
    Extends w (w.fresh b k) ∧ (w.fresh b k).Mem ∧ (w.fresh b k).me = w.nextObj ∧ (w.fresh b k).sl.arr = w.nextArr ∧ (w.fresh b k).face = b.face ∧ (w.fresh b k).held = w.held := by
  obtain ⟨hx, hm1, hq, hn, ha, hv⟩ := newObj_ext hm b.data b.links b.builder k
  refine ⟨⟨hx.nextObj, hx.nextArr, hx.objs, hx.arrs⟩, ⟨?_, hm1.objs, hm1.apart, hm1.held⟩, hq, ?_, ?_, rfl⟩
  · change (w.newObj b.data b.links b.builder k).2 < (w.newObj b.data b.links b.builder k).1.nextObj
    rw [hq, hn]; exact Nat.lt_succ_self _
  · exact ha
  · simp only [view, Seen.node.injEq, Node.proto.injEq] at hv
    exact Prod.ext hv.1 (Prod.ext hv.2.1 hv.2.2)

theorem Extends.refl (w : World) : Extends w w := ⟨le_refl _, le_refl _, fun _ _ => rfl, fun _ _ => rfl⟩

theorem Extends.read {w w' : World} (h : Extends w w') {s : Slice} (hs : s.arr < w.nextArr) : w'.read s = w.read s := by
  rw [World.read, h.arrs _ hs, World.read]

theorem Extends.view {w w' : World} (h : Extends w w') (hm : w.Mem) {x : Held} (hx : w.There x) : w'.view x = w.view x := by
  cases x with
  | node o => simp only [World.view, h.objs o hx, h.read (hm.objs o hx).1]
  | links s => simp only [World.view, h.read hx.1]

theorem Extends.face {w w' : World} (h : Extends w w') (hm : w.Mem) (hme : w'.me = w.me) : w'.face = w.face := by
  have hsl : w'.sl = w.sl := by rw [World.sl, hme, h.objs _ hm.me, World.sl]
  rw [World.face, hsl, hme, h.objs _ hm.me, h.read hm.sl.1, World.face]

theorem hold_goes {w : World} (hm : w.Mem) (op : DOp) (r : DRes) :
    Extends w (w.hold op r) ∧ (w.hold op r).Mem ∧ (w.hold op r).me = w.me ∧ (w.hold op r).c = w.c ∧ ∃ t, (w.hold op r).held = w.held ++ t := by
  have triv : Extends w w ∧ w.Mem ∧ w.me = w.me ∧ w.c = w.c ∧ ∃ t, w.held = w.held ++ t := ⟨.refl w, hm, rfl, rfl, [], by simp⟩
  unfold hold
  split
  · rename_i d ls b
    split
    · refine ⟨⟨le_refl _, le_refl _, fun _ _ => rfl, fun _ _ => rfl⟩, ⟨hm.me, hm.objs, hm.apart, ?_⟩, rfl, rfl, _, rfl⟩
      intro h hh
      simp only [List.mem_append, List.mem_singleton] at hh
      rcases hh with hh | rfl
      · exact hm.held h hh
      · exact hm.me
    · obtain ⟨hx, hm1, hq, hn, ha, hv⟩ := newObj_ext hm d ls b 0
      refine ⟨⟨hx.nextObj, hx.nextArr, hx.objs, hx.arrs⟩, ⟨hm1.me, hm1.objs, hm1.apart, ?_⟩, rfl, rfl, _, rfl⟩
      intro h hh
      simp only [List.mem_append, List.mem_singleton] at hh
      rcases hh with hh | rfl
      · exact hm1.held h hh
      · change (w.newObj d ls b 0).2 < (w.newObj d ls b 0).1.nextObj
        rw [hq, hn]; exact Nat.lt_succ_self _
  · rename_i ls e
    split
    · refine ⟨⟨le_refl _, le_refl _, fun _ _ => rfl, fun _ _ => rfl⟩, ⟨hm.me, hm.objs, hm.apart, ?_⟩, rfl, rfl, _, rfl⟩
      intro h hh
      simp only [List.mem_append, List.mem_singleton] at hh
      rcases hh with hh | rfl
      · exact hm.held h hh
      · exact hm.sl
    · obtain ⟨hx, hm1, hf, hr, hn⟩ := newArr_ext hm ls 0
      refine ⟨⟨hx.nextObj, hx.nextArr, hx.objs, hx.arrs⟩, ⟨hm1.me, hm1.objs, hm1.apart, ?_⟩, rfl, rfl, _, rfl⟩
      intro h hh
      simp only [List.mem_append, List.mem_singleton] at hh
      rcases hh with hh | rfl
      · exact hm1.held h hh
      · exact hf
  · exact triv

/-! ## A call -/

/-- The slices that end where that of the directory's node ends, or before, or are of other arrays, stay as
they are, and such slices. -/
def Gentle (w w1 : World) : Prop := ∀ s : Slice, w.Fits s → (s.arr = w.sl.arr → s.len ≤ w.sl.len) →
  w1.read s = w.read s ∧ (s.arr = w1.sl.arr → s.len ≤ w1.sl.len)

/-- What a call can do to the memory. -/
inductive Kind (w : World) (op : DOp) (c' : Cfg) (w1 : World) : Prop
  | still (h : w1 = w) (hb : c'.dir.IsBasic → w.c.dir.IsBasic)
  | edit (hb : w.c.dir.IsBasic) (hr : op ≠ .reload) (hl : Local w w1)
      (hg : (∀ name, op.target = some name → ¬ w.c.dir.Plain name) → Gentle w w1)
  | fresh (hb : w.c.dir.IsHamt ∨ op = .reload) (hx : Extends w w1) (hm : w1.Mem) (hme : w1.me = w.nextObj) (ha : w1.sl.arr = w.nextArr) (hh : w1.held = w.held)

theorem Kind.mem {w w1 : World} {op : DOp} {c' : Cfg} (h : Kind w op c' w1) (hm : w.Mem) : w1.Mem := by
  cases h with
  | still h _ => rw [h]; exact hm
  | edit _ _ hl _ => exact hl.mem hm
  | fresh _ _ hm _ _ _ => exact hm

theorem Kind.held {w w1 : World} {op : DOp} {c' : Cfg} (h : Kind w op c' w1) : w1.held = w.held := by
  cases h with
  | still h _ => rw [h]
  | edit _ _ hl _ => exact hl.held
  | fresh _ _ _ _ _ hh => exact hh

theorem face_c (w : World) (c' : Cfg) : ({ w with c := c' } : World).face = w.face := rfl

theorem getNodeLink_plain {b : Basic} {name : Bytes} (h : (b.getNodeLink name).isSome = true) : (Dir.basic b).Plain name := by
  obtain ⟨l, hl⟩ := Option.isSome_iff_exists.mp h
  exact ⟨b, l, rfl, List.mem_of_find?_eq_some hl, by simpa using List.find?_some hl⟩

theorem effect_kind {env : Env} {room : Nat → Nat} {w : World} {op : DOp} {r : DRes} {c' : Cfg} (hi : w.Inv)
    (h : exec env op w.c = (r, c')) (hr : ∀ e, r ≠ .fail e) :
    Kind w op c' (w.effect room op w.c.dir c'.dir) ∧ (∀ b, c'.dir = .basic b → (w.effect room op w.c.dir c'.dir).face = b.face) := by
  have hm := hi.mem
  cases hd : w.c.dir with
  | hamt hh =>
    cases hd' : c'.dir with
    | hamt h' =>
      exact ⟨.still rfl (fun ⟨b, hb⟩ => by rw [hd'] at hb; cases hb), fun b hb => by cases hb⟩
    | basic b' =>
      obtain ⟨hx, hm1, hme, ha, hf, hhe⟩ := fresh_goes hm b' (room b'.links.length)
      refine ⟨.fresh (.inl ⟨hh, hd⟩) hx hm1 hme ha hhe, ?_⟩
      intro b hb; cases hb; exact hf
  | basic b =>
    have hown := hi.own b hd
    have hB : w.c.dir.IsBasic := ⟨b, hd⟩
    simp only [face, Basic.face, Prod.mk.injEq] at hown
    obtain ⟨hda, hli, hbu⟩ := hown
    rcases exec_from_plain h hd with ⟨⟨e, he⟩, -⟩ | ⟨-, ⟨h', hd'⟩ | ⟨b', hd', hop⟩⟩
    · exact absurd he (hr e)
    · rw [hd']
      exact ⟨.still rfl (fun _ => hB), fun b hb => by cases hb⟩
    · rw [hd']
      have stillCase : b' = b → Kind w op c' w ∧ (∀ x, Dir.basic b' = .basic x → w.face = x.face) := by
        rintro rfl
        exact ⟨.still rfl (fun _ => hB), fun x hx => by cases hx; exact hi.own _ hd⟩
      cases op with
      | add name nd =>
        dsimp only at hop
        dsimp only [effect]
        by_cases hs : (b.getNodeLink name).isSome = true
        · rw [if_pos hs] at hop ⊢
          obtain ⟨hl1, hf1⟩ := removeLink_goes hm name
          have hm1 := hl1.mem hm
          obtain ⟨hl2, hf2, -, -⟩ := addLink_goes hm1 room (.mk name nd.size nd)
          refine ⟨.edit hB (by simp) (hl1.trans hl2 hm) (fun hq => ?_), ?_⟩
          · exact absurd (hd ▸ getNodeLink_plain hs) (hq name rfl)
          · intro x hx; cases hx
            simp only [face, Prod.mk.injEq] at hf1
            rw [hf2, hop, hf1.1, hf1.2.1, hf1.2.2, hda, hli, hbu]
        · rw [if_neg hs] at hop ⊢
          obtain ⟨hl2, hf2, hg1, hg2⟩ := addLink_goes hm room (.mk name nd.size nd)
          refine ⟨.edit hB (by simp) hl2 (fun _ => ?_), ?_⟩
          · intro s hs hle
            refine ⟨hg1 s hs hle, fun ha => ?_⟩
            rcases hl2.move with hq | hq
            · exact le_trans (hle (ha.trans hq)) (hg2 hq)
            · have := hs.1; omega
          · intro x hx; cases hx
            rw [hf2, hop, hda, hli, hbu]
      | remove name =>
        obtain ⟨hs, hop⟩ := hop
        obtain ⟨hl1, hf1⟩ := removeLink_goes hm name
        refine ⟨.edit hB (by simp) hl1 (fun hq => absurd (hd ▸ getNodeLink_plain hs) (hq name rfl)), ?_⟩
        intro x hx; cases hx
        exact hf1.trans (by rw [hop, hda, hli, hbu])
      | setCidBuilder x =>
        dsimp only at hop
        dsimp only [effect]
        obtain ⟨hl1, hf1⟩ := setBuilder_goes hm b'.builder
        refine ⟨.edit hB (by simp) hl1 (fun _ s hs hle => ⟨rfl, ?_⟩), ?_⟩
        · have : (w.setObj w.me { w.objs w.me with builder := b'.builder }).sl = w.sl := by simp [World.sl, setObj]
          rw [this]; exact hle
        · intro x hx; cases hx
          rw [hf1, hda, hli, Basic.face, hop.1, hop.2]
      | reload =>
        obtain ⟨hx, hm1, hme, ha, hf, hhe⟩ := fresh_goes hm b' (room b'.links.length)
        refine ⟨.fresh (.inr rfl) hx hm1 hme ha hhe, ?_⟩
        intro b hb; cases hb; exact hf
      | find name => exact stillCase hop
      | links => exact stillCase hop
      | forEach cb => exact stillCase hop
      | getNode => exact stillCase hop
      | setThreshold n => exact stillCase hop

/-- What a call does to the memory: first a change `w1`, then the client may get something. -/
theorem call_goes (env : Env) (room : Nat → Nat) {w : World} (op : DOp) (hi : w.Inv) :
    ∃ w1, Kind w op (w.call env room op).c w1 ∧ Extends w1 (w.call env room op) ∧ (w.call env room op).me = w1.me ∧
      (∃ t, (w.call env room op).held = w.held ++ t) ∧ (w.call env room op).Inv ∧ (w.call env room op).c = (exec env op w.c).2 := by
  cases hex : exec env op w.c with
  | mk r c' =>
    by_cases hr : ∃ e, r = .fail e
    · obtain ⟨e, rfl⟩ := hr
      have e1 : w.call env room op = { w with c := c' } := by rw [call, hex]
      rw [e1]
      have hx : Extends w { w with c := c' } := ⟨le_refl _, le_refl _, fun _ _ => rfl, fun _ _ => rfl⟩
      have hback : ∀ b, c'.dir = .basic b → w.c.dir = .basic b := by
        intro b hb
        cases hd : w.c.dir with
        | hamt h =>
          obtain ⟨h', hh⟩ := exec_fail_hamt hex ⟨h, hd⟩
          rw [hb] at hh; cases hh
        | basic b0 =>
          rcases exec_from_plain hex hd with ⟨-, hq⟩ | ⟨hq, -⟩
          · rw [← hb, hq]
          · exact absurd rfl (hq e)
      refine ⟨w, .still rfl (fun ⟨b, hb⟩ => ⟨b, hback b hb⟩), hx, rfl, ⟨[], by simp⟩, ⟨⟨hi.mem.me, hi.mem.objs, hi.mem.apart, hi.mem.held⟩, ?_⟩, rfl⟩
      intro b hb
      rw [face_c]; exact hi.own b (hback b hb)
    · have hr' : ∀ e, r ≠ .fail e := fun e he => hr ⟨e, he⟩
      have e1 : w.call env room op = ({ (w.effect room op w.c.dir c'.dir) with c := c' } : World).hold op r := by
        rw [call, hex]
        cases r with
        | fail e => exact absurd rfl (hr' e)
        | _ => rfl
      obtain ⟨hk, hf⟩ := effect_kind (room := room) hi hex hr'
      have hm1 := hk.mem hi.mem
      have hm2 : ({ (w.effect room op w.c.dir c'.dir) with c := c' } : World).Mem := ⟨hm1.me, hm1.objs, hm1.apart, hm1.held⟩
      obtain ⟨hx, hm3, hme, hc, t, ht⟩ := hold_goes hm2 op r
      rw [← e1] at hx hm3 hme hc ht
      have hc' : (w.call env room op).c = c' := hc
      refine ⟨w.effect room op w.c.dir c'.dir, by rw [hc']; exact hk, ⟨hx.nextObj, hx.nextArr, hx.objs, hx.arrs⟩, hme, ⟨t, ?_⟩, ⟨hm3, ?_⟩, hc'⟩
      · rw [ht]; exact congrArg (· ++ t) hk.held
      · intro b hb
        rw [hx.face hm2 hme, face_c]
        exact hf b (by rw [← hc']; exact hb)

/-! ## Encoding -/

theorem insert_length (l : Link) (ls : List Link) : (sorted.insert l ls).length = ls.length + 1 := by
  induction ls with
  | nil => rfl
  | cons x xs ih =>
    unfold sorted.insert
    split
    · rw [List.length_cons, ih, List.length_cons]
    · rfl

theorem sorted_length (ls : List Link) : (sorted ls).length = ls.length := by
  induction ls with
  | nil => rfl
  | cons l ls ih => rw [sorted, insert_length, ih, List.length_cons]

/-- The arrays after encoding the node `o`. -/
def sortObj (w : World) (o : Nat) : World :=
  w.setArr (w.objs o).sl.arr (sorted (w.read (w.objs o).sl) ++ (w.arrs (w.objs o).sl.arr).drop (w.objs o).sl.len)

theorem sortObj_mem {w : World} (hm : w.Mem) {o : Nat} (ho : o < w.nextObj) : (w.sortObj o).Mem := by
  have hl : ∀ a, ((w.sortObj o).arrs a).length = (w.arrs a).length := by
    intro a
    by_cases h : a = (w.objs o).sl.arr
    · have := (hm.objs o ho).2
      subst h
      simp only [sortObj, setArr, if_true, List.length_append, sorted_length, List.length_drop, read, List.length_take]
      omega
    · simp only [sortObj, setArr, if_neg h]
  have hf : ∀ s, w.Fits s → (w.sortObj o).Fits s := fun s hs => ⟨hs.1, by rw [hl]; exact hs.2⟩
  refine ⟨hm.me, fun p hp => hf _ (hm.objs p hp), hm.apart, fun h hh => ?_⟩
  have := hm.held h hh
  cases h with
  | node o => exact this
  | links s => exact hf s this

theorem sortObj_read {w : World} (hm : w.Mem) {o : Nat} (ho : o < w.nextObj) : (w.sortObj o).read (w.objs o).sl = sorted (w.read (w.objs o).sl) := by
  have hl : (sorted (w.read (w.objs o).sl)).length = (w.objs o).sl.len := by
    rw [sorted_length]; simp only [read, List.length_take]; exact Nat.min_eq_left (hm.objs o ho).2
  rw [read]
  simp only [sortObj, setArr, if_true]
  rw [List.take_append_of_le_length (by rw [hl]), List.take_of_length_le (by rw [hl])]

theorem sortObj_other {w : World} {o : Nat} {s : Slice} (hs : s.arr ≠ (w.objs o).sl.arr) : (w.sortObj o).read s = w.read s := by
  simp only [read, sortObj, setArr, if_neg hs]

theorem encode_inv {w : World} (hi : w.Inv) (k : Nat) : (w.encode k).Inv ∧ (w.encode k).held = w.held ∧ (w.encode k).me = w.me ∧
    ((w.encode k).c.dir.IsBasic ↔ w.c.dir.IsBasic) := by
  cases hk : w.held[k]? with
  | none =>
    have e : w.encode k = w := by rw [encode, hk]
    rw [e]; exact ⟨hi, rfl, rfl, Iff.rfl⟩
  | some x =>
    cases x with
    | links s =>
      have e : w.encode k = w := by rw [encode, hk]
      rw [e]; exact ⟨hi, rfl, rfl, Iff.rfl⟩
    | node o =>
      have ho : o < w.nextObj := hi.mem.held _ (List.mem_of_getElem? hk)
      have hm := sortObj_mem hi.mem ho
      cases hd : w.c.dir with
      | hamt h =>
        have e : w.encode k = w.sortObj o := by rw [encode, hk]; dsimp only; rw [hd]; rfl
        rw [e]
        refine ⟨⟨hm, fun b hb => ?_⟩, rfl, rfl, ?_⟩
        · have : w.c.dir = .basic b := hb
          rw [hd] at this; cases this
        · change w.c.dir.IsBasic ↔ _; rw [hd]
      | basic b =>
        have hown := hi.own b hd
        simp only [face, Basic.face, Prod.mk.injEq] at hown
        by_cases hq : o = w.me
        · have e : w.encode k = { w.sortObj o with c := { w.c with dir := .basic { b with links := sorted b.links } } } := by
            rw [encode, hk]; dsimp only; rw [hd]; dsimp only; rw [if_pos hq]; rfl
          rw [e]
          refine ⟨⟨⟨hm.me, hm.objs, hm.apart, hm.held⟩, ?_⟩, rfl, rfl, ⟨fun _ => ⟨b, rfl⟩, fun _ => ⟨_, rfl⟩⟩⟩
          intro b' hb'
          cases hb'
          have := sortObj_read hi.mem ho
          subst hq
          change ((w.objs w.me).data, (w.sortObj w.me).read (w.objs w.me).sl, (w.objs w.me).builder) = _
          rw [this]
          change ((w.objs w.me).data, sorted (w.read w.sl), (w.objs w.me).builder) = _
          rw [hown.1, hown.2.1, hown.2.2]; rfl
        · have e : w.encode k = w.sortObj o := by rw [encode, hk]; dsimp only; rw [hd]; dsimp only; rw [if_neg hq]; rfl
          rw [e]
          refine ⟨⟨hm, fun b' hb' => ?_⟩, rfl, rfl, ?_⟩
          · have hb2 : w.c.dir = .basic b' := hb'
            change ((w.objs w.me).data, (w.sortObj o).read w.sl, (w.objs w.me).builder) = _
            rw [sortObj_other (s := w.sl) (hi.mem.apart _ hi.mem.me o ho (Ne.symm hq))]
            exact hi.own b' hb2
          · change w.c.dir.IsBasic ↔ _; rw [hd]

theorem step_inv (env : Env) (room : Nat → Nat) {w : World} (hi : w.Inv) (op : AOp) : (w.step env room op).Inv := by
  cases op with
  | call op => obtain ⟨w1, -, -, -, -, h, -⟩ := call_goes env room op hi; exact h
  | encode k => exact (encode_inv hi k).1

theorem after_inv (env : Env) (room : Nat → Nat) {w : World} (hi : w.Inv) (ops : List AOp) : (w.after env room ops).Inv := by
  induction ops generalizing w with
  | nil => exact hi
  | cons op ops ih => exact ih (step_inv env room hi op)

theorem new_inv (thr : Int) : (new thr).Inv := by
  refine ⟨⟨Nat.one_pos, fun o _ => ⟨Nat.one_pos, le_refl _⟩, ?_, by simp [new]⟩, ?_⟩
  · intro o ho p hp hne
    have h1 : o < 1 := ho
    have h2 : p < 1 := hp
    omega
  · intro b hb; cases hb; rfl

theorem fromNode_inv {room : Nat → Nat} {n : Node} {thr : Int} {w : World} (h : fromNode room n thr = .ok w) :
    w.Inv ∧ w.held = [.node 0] ∧ w.view (.node 0) = .node n ∧ (w.c.dir.IsBasic → 1 ≤ w.me ∧ 1 ≤ w.sl.arr) ∧ 1 ≤ w.nextObj ∧ 1 ≤ w.nextArr ∧ (w.objs 0).sl.arr = 0 := by
  unfold fromNode at h
  split at h
  · cases h
  · rename_i dir d ls b hd
    have hm0 : ∀ c, World.Mem { c := c, me := 0, objs := fun _ => ⟨d, ⟨0, ls.length⟩, b⟩, arrs := fun _ => ls, nextObj := 1, nextArr := 1, held := [.node 0] } := by
      intro c
      refine ⟨Nat.one_pos, fun o _ => ⟨Nat.one_pos, le_refl _⟩, ?_, ?_⟩
      · intro o ho p hp hne
        have h1 : o < 1 := ho
        have h2 : p < 1 := hp
        omega
      · intro h hh
        simp only [List.mem_singleton] at hh
        subst hh; exact Nat.one_pos
    dsimp only at h
    split at h
    · rename_i b0
      cases h
      obtain ⟨hx, hm, hme, ha, hf, hhe⟩ := fresh_goes (hm0 (start (.basic b0) thr)) b0 (room b0.links.length)
      refine ⟨⟨hm, fun b' hb' => ?_⟩, hhe, ?_, fun _ => ⟨?_, ?_⟩, ?_, ?_, ?_⟩
      · cases hb'; exact hf
      · rw [hx.view (x := .node 0) (hm0 _) (by exact Nat.one_pos)]; simp [view, read]
      · rw [hme]
      · rw [ha]
      · exact le_trans (le_refl 1) hx.nextObj
      · exact le_trans (le_refl 1) hx.nextArr
      · rw [hx.objs 0 Nat.one_pos]
    · rename_i h0
      cases h
      refine ⟨⟨hm0 _, fun b' hb' => by cases hb'⟩, rfl, by simp [view, read], (by rintro ⟨b, hb⟩; cases hb), le_refl _, le_refl _, rfl⟩
  · cases h

theorem reached_inv {env : Env} {room : Nat → Nat} {w : World} (h : Reached env room w) : w.Inv := by
  induction h with
  | new thr => exact new_inv thr
  | load h => exact (fromNode_inv h).1
  | step _ op ih => exact step_inv env room ih op

theorem reached_after {env : Env} {room : Nat → Nat} {w : World} (h : Reached env room w) (ops : List AOp) : Reached env room (w.after env room ops) := by
  induction ops generalizing w with
  | nil => exact h
  | cons op ops ih => exact ih (.step h op)

/-! ## Things out of reach -/

/-- The objects below `O` and the arrays below `A` are none of the directory's. -/
structure Away (w : World) (O A : Nat) : Prop where
  obj : O ≤ w.nextObj
  arr : A ≤ w.nextArr
  me : w.c.dir.IsBasic → O ≤ w.me ∧ A ≤ w.sl.arr

theorem sl_ext {w w' : World} (h : Extends w w') (hm : w.Mem) (hme : w'.me = w.me) : w'.sl = w.sl := by
  rw [World.sl, hme, h.objs _ hm.me, World.sl]

theorem call_away {env : Env} {room : Nat → Nat} {w : World} {op : DOp} {O A : Nat} (hi : w.Inv) (ha : w.Away O A) :
    (w.call env room op).Away O A ∧ (∀ o < O, (w.call env room op).objs o = w.objs o) ∧ (∀ a < A, (w.call env room op).arrs a = w.arrs a) := by
  obtain ⟨w1, hk, hx, hme, -, hi', -⟩ := call_goes env room op hi
  have hm1 := hk.mem hi.mem
  have hsl := sl_ext hx hm1 hme
  cases hk with
  | still h hb =>
    subst h
    refine ⟨⟨le_trans ha.obj hx.nextObj, le_trans ha.arr hx.nextArr, fun h => ?_⟩, fun o ho => hx.objs o (lt_of_lt_of_le ho ha.obj), fun a h => hx.arrs a (lt_of_lt_of_le h ha.arr)⟩
    rw [hme, hsl]; exact ha.me (hb h)
  | edit hb hr hl hg =>
    obtain ⟨hO, hA⟩ := ha.me hb
    have h1 : O ≤ w1.nextObj := by rw [hl.nextObj]; exact ha.obj
    have h2 : A ≤ w1.nextArr := le_trans ha.arr hl.nextArr
    refine ⟨⟨le_trans h1 hx.nextObj, le_trans h2 hx.nextArr, fun _ => ?_⟩, fun o ho => ?_, fun a h => ?_⟩
    · rw [hme, hsl, hl.me]
      refine ⟨hO, ?_⟩
      rcases hl.move with hq | hq
      · rw [hq]; exact hA
      · exact le_trans ha.arr hq
    · rw [hx.objs o (lt_of_lt_of_le ho h1), hl.objs o (by omega)]
    · rw [hx.arrs a (lt_of_lt_of_le h h2), hl.arrs a (lt_of_lt_of_le h ha.arr) (by omega)]
  | fresh hb hx1 hm hme1 ha1 hh =>
    refine ⟨⟨le_trans ha.obj (le_trans hx1.nextObj hx.nextObj), le_trans ha.arr (le_trans hx1.nextArr hx.nextArr), fun _ => ?_⟩, fun o ho => ?_, fun a h => ?_⟩
    · rw [hme, hsl, hme1, ha1]; exact ⟨ha.obj, ha.arr⟩
    · have := lt_of_lt_of_le ho ha.obj
      rw [hx.objs o (lt_of_lt_of_le this hx1.nextObj), hx1.objs o this]
    · have := lt_of_lt_of_le h ha.arr
      rw [hx.arrs a (lt_of_lt_of_le this hx1.nextArr), hx1.arrs a this]

theorem after_away {env : Env} {room : Nat → Nat} {w : World} {ops : List AOp} {O A : Nat} (hi : w.Inv) (ha : w.Away O A) (hc : OnlyCalls ops) :
    (∀ o < O, (w.after env room ops).objs o = w.objs o) ∧ (∀ a < A, (w.after env room ops).arrs a = w.arrs a) := by
  induction ops generalizing w with
  | nil => exact ⟨fun _ _ => rfl, fun _ _ => rfl⟩
  | cons op ops ih =>
    obtain ⟨o, rfl⟩ := hc op (by simp)
    obtain ⟨h1, h2, h3⟩ := call_away (env := env) (room := room) (op := o) hi ha
    obtain ⟨h4, h5⟩ := ih (step_inv env room hi (.call o)) h1 (fun x hx => hc x (by simp [hx]))
    exact ⟨fun o ho => (h4 o ho).trans (h2 o ho), fun a h => (h5 a h).trans (h3 a h)⟩

/-- `x` is of objects below `O` and arrays below `A`. -/
def Below (w : World) (O A : Nat) : Held → Prop
  | .node o => o < O ∧ (w.objs o).sl.arr < A
  | .links s => s.arr < A

theorem view_same {w w' : World} {O A : Nat} (ho : ∀ o < O, w'.objs o = w.objs o) (ha : ∀ a < A, w'.arrs a = w.arrs a) {x : Held} (hx : w.Below O A x) :
    w'.view x = w.view x := by
  cases x with
  | node o => simp only [view, read, ho o hx.1, ha _ hx.2]
  | links s => simp only [view, read, ha _ hx]

theorem below_all {w : World} (hm : w.Mem) {x : Held} (hx : w.There x) : w.Below w.nextObj w.nextArr x := by
  cases x with
  | node o => exact ⟨hx, (hm.objs o hx).1⟩
  | links s => exact hx.1

/-! ## Quiet calls -/

theorem call_quiet {env : Env} {room : Nat → Nat} {w : World} {op : DOp} (hi : w.Inv) (hq : ∀ name, op.target = some name → ¬ w.c.dir.Plain name)
    {s : Slice} (hs : w.Fits s) (hl : s.arr = w.sl.arr → s.len ≤ w.sl.len) :
    (w.call env room op).read s = w.read s ∧ (w.call env room op).Fits s ∧ (s.arr = (w.call env room op).sl.arr → s.len ≤ (w.call env room op).sl.len) := by
  obtain ⟨w1, hk, hx, hme, -, hi', -⟩ := call_goes env room op hi
  have hm1 := hk.mem hi.mem
  have hsl := sl_ext hx hm1 hme
  have fin : w1.Fits s → w1.read s = w.read s → (s.arr = w1.sl.arr → s.len ≤ w1.sl.len) →
      (w.call env room op).read s = w.read s ∧ (w.call env room op).Fits s ∧ (s.arr = (w.call env room op).sl.arr → s.len ≤ (w.call env room op).sl.len) := by
    intro h1 h2 h3
    exact ⟨(hx.read h1.1).trans h2, ⟨lt_of_lt_of_le h1.1 hx.nextArr, by rw [hx.arrs _ h1.1]; exact h1.2⟩, by rw [hsl]; exact h3⟩
  cases hk with
  | still h hb => subst h; exact fin hs rfl hl
  | edit hb hr hl1 hg =>
    obtain ⟨h1, h2⟩ := hg hq s hs hl
    exact fin (hl1.fits hs) h1 h2
  | fresh hb hx1 hm hme1 ha1 hh =>
    refine fin ⟨lt_of_lt_of_le hs.1 hx1.nextArr, by rw [hx1.arrs _ hs.1]; exact hs.2⟩ (hx1.read hs.1) (fun h => ?_)
    rw [ha1] at h; have := hs.1; omega

theorem after_quiet {env : Env} {room : Nat → Nat} {w : World} {ops : List AOp} (hi : w.Inv) (hq : Quiet env room w ops)
    {s : Slice} (hs : w.Fits s) (hl : s.arr = w.sl.arr → s.len ≤ w.sl.len) :
    (w.after env room ops).read s = w.read s ∧ (w.after env room ops).Fits s ∧ (s.arr = (w.after env room ops).sl.arr → s.len ≤ (w.after env room ops).sl.len) := by
  induction ops generalizing w with
  | nil => exact ⟨rfl, hs, hl⟩
  | cons op ops ih =>
    obtain ⟨⟨o, rfl, h⟩, hq⟩ := hq
    obtain ⟨h1, h2, h3⟩ := call_quiet (env := env) (room := room) hi h hs hl
    obtain ⟨h4, h5, h6⟩ := ih (step_inv env room hi (.call o)) hq h2 h3
    exact ⟨h4.trans h1, h5, h6⟩

/-! ## The node of a directory that stays plain -/

theorem step_plain {env : Env} {room : Nat → Nat} {w : World} {op : AOp} (hi : w.Inv) (hb : w.c.dir.IsBasic) (hr : op ≠ .call .reload) :
    (w.step env room op).me = w.me := by
  cases op with
  | encode k => exact (encode_inv hi k).2.2.1
  | call op =>
    obtain ⟨w1, hk, hx, hme, -, hi', -⟩ := call_goes env room op hi
    refine hme.trans ?_
    cases hk with
    | still h _ => rw [h]
    | edit _ _ hl _ => exact hl.me
    | fresh h _ _ _ _ _ =>
      rcases h with ⟨h, hh⟩ | rfl
      · obtain ⟨b, hb⟩ := hb; rw [hb] at hh; cases hh
      · exact absurd rfl hr

theorem after_plain {env : Env} {room : Nat → Nat} {w : World} {ops : List AOp} (hi : w.Inv) (hp : StaysPlain env room w ops) :
    (w.after env room ops).me = w.me ∧ (w.after env room ops).c.dir.IsBasic := by
  induction ops generalizing w with
  | nil => exact ⟨rfl, hp⟩
  | cons op ops ih =>
    obtain ⟨hb, hr, hp⟩ := hp
    obtain ⟨h1, h2⟩ := ih (step_inv env room hi op) hp
    exact ⟨h1.trans (step_plain hi hb hr), h2⟩

theorem held_step {env : Env} {room : Nat → Nat} {w : World} (hi : w.Inv) (op : AOp) : ∃ t, (w.step env room op).held = w.held ++ t := by
  cases op with
  | encode k => exact ⟨[], by rw [List.append_nil]; exact (encode_inv hi k).2.1⟩
  | call op => obtain ⟨w1, -, -, -, h, -⟩ := call_goes env room op hi; exact h

theorem held_after {env : Env} {room : Nat → Nat} {w : World} (hi : w.Inv) (ops : List AOp) : ∃ t, (w.after env room ops).held = w.held ++ t := by
  induction ops generalizing w with
  | nil => exact ⟨[], by simp [after]⟩
  | cons op ops ih =>
    obtain ⟨t1, h1⟩ := held_step (env := env) (room := room) hi op
    obtain ⟨t2, h2⟩ := ih (step_inv env room hi op)
    exact ⟨t1 ++ t2, by rw [after, h2, h1, List.append_assoc]⟩

/-! ## Loops -/

theorem each_quiet {env : Env} {room : Nat → Nat} {cb : Nat → Link → List AOp} {s : Slice} {P : Nat → World → Prop}
    (hcb : ∀ i l w, P i w → Quiet env room w (cb i l) ∧ P (i + 1) (w.after env room (cb i l))) :
    ∀ (n i : Nat) (w : World), w.Inv → w.Fits s → (s.arr = w.sl.arr → s.len ≤ w.sl.len) → i + n = s.len → P i w →
      (each env room cb s n i w).1 = (w.read s).drop i := by
  intro n
  induction n with
  | zero =>
    intro i w _ hs _ hi _
    have : (w.read s).length = s.len := by rw [read, List.length_take]; exact Nat.min_eq_left hs.2
    rw [each, List.drop_of_length_le (by omega)]
  | succ n ih =>
    intro i w hv hs hl hi hp
    have hlen : (w.read s).length = s.len := by rw [read, List.length_take]; exact Nat.min_eq_left hs.2
    have hlt : i < (w.read s).length := by omega
    have hget : (w.read s)[i]? = some (w.read s)[i] := List.getElem?_eq_getElem hlt
    obtain ⟨hq, hp'⟩ := hcb i (w.read s)[i] w hp
    obtain ⟨h1, h2, h3⟩ := after_quiet hv hq hs hl
    have := ih (i + 1) _ (after_inv env room hv _) h2 h3 (by omega) hp'
    rw [h1] at this
    rw [each, hget]
    dsimp only
    rw [this, ← List.drop_eq_getElem_cons hlt]

/-- `RemoveNodeLink` seen through a slice at least as long as that of the node. -/
theorem removeLink_read {w : World} (hm : w.Mem) (name : Bytes) {s : Slice} (ha : s.arr = w.sl.arr) (hl : w.sl.len ≤ s.len) :
    (w.removeLink name).read s = (w.read w.sl).filter (fun l => l.name ≠ name) ++ (w.read s).drop ((w.read w.sl).filter (fun l => l.name ≠ name)).length := by
  have hle : ((w.read w.sl).filter (fun l => l.name ≠ name)).length ≤ s.len := by
    refine le_trans (List.length_filter_le _ _) (le_trans ?_ hl)
    simp [read]
  have harr : (w.removeLink name).arrs w.sl.arr = (w.read w.sl).filter (fun l => l.name ≠ name) ++
      (w.arrs w.sl.arr).drop ((w.read w.sl).filter (fun l => l.name ≠ name)).length := by
    simp [removeLink, setSl, setArr, setObj]
  generalize (w.read w.sl).filter (fun l => l.name ≠ name) = ref at *
  rw [read, ha, harr, List.take_append, List.take_of_length_le hle, read, ha, List.drop_take]

/-- The state in a loop that removes what it is given, once past the first entry: the entry `x` is in front
and nowhere else. -/
structure Missed (w : World) (s : Slice) (x : Link) : Prop where
  inv : w.Inv
  basic : w.c.dir.IsBasic
  fits : w.Fits s
  arr : s.arr = w.sl.arr
  len : w.sl.len ≤ s.len
  seen : ∃ tl, w.read s = x :: tl ∧ ∀ l ∈ tl, l.name ≠ x.name
  live : ∃ tl, w.read w.sl = x :: tl

theorem call_remove {env : Env} {room : Nat → Nat} {w : World} {name : Bytes} (hi : w.Inv) (hb : w.c.dir.IsBasic) :
    ((w.call env room (.remove name)).c.dir.IsBasic) ∧
    ((∃ c', w.call env room (.remove name) = { w with c := c' }) ∨ ∃ c', w.call env room (.remove name) = { w.removeLink name with c := c' }) := by
  obtain ⟨b, hb⟩ := hb
  cases hex : exec env (.remove name) w.c with
  | mk r c' =>
    have key : r ≠ .done → ∃ e, r = .fail e := by
      simp only [exec] at hex
      intro hr
      split at hex
      · cases hex; exact absurd rfl hr
      · cases hex; exact ⟨_, rfl⟩
    rcases exec_from_plain hex hb with ⟨⟨e, rfl⟩, hd⟩ | ⟨hr, hd⟩
    · have e1 : w.call env room (.remove name) = { w with c := c' } := by rw [call, hex]
      rw [e1]; exact ⟨⟨b, hd⟩, .inl ⟨c', rfl⟩⟩
    · have hdone : r = .done := by
        by_contra hne
        obtain ⟨e, he⟩ := key hne
        exact hr e he
      subst hdone
      rcases hd with ⟨h, hh⟩ | ⟨b', hb', -⟩
      · simp only [exec] at hex
        unfold removeChild at hex
        rw [hb] at hex
        dsimp only at hex
        split at hex
        · rename_i hq
          obtain ⟨-, rfl⟩ := Prod.mk.inj hq
          cases hex
          cases hh
        · cases hex
      · have e1 : w.call env room (.remove name) = { w.removeLink name with c := c' } := by
          rw [call, hex]; dsimp only; rw [hb, hb']; rfl
        rw [e1]; exact ⟨⟨b', hb'⟩, .inr ⟨c', rfl⟩⟩

theorem missed_step {env : Env} {room : Nat → Nat} {w : World} {s : Slice} {x : Link} (h : Missed w s x) {name : Bytes} (hn : name ≠ x.name) :
    Missed (w.call env room (.remove name)) s x := by
  have hi' := step_inv env room h.inv (.call (.remove name))
  obtain ⟨hb, hc⟩ := call_remove (env := env) (room := room) (name := name) h.inv h.basic
  rcases hc with ⟨c', e⟩ | ⟨c', e⟩
  · exact ⟨hi', hb, by rw [e]; exact h.fits, by rw [e]; exact h.arr, by rw [e]; exact h.len, by rw [e]; exact h.seen, by rw [e]; exact h.live⟩
  · obtain ⟨hl1, hf1⟩ := removeLink_goes h.inv.mem name
    have hsl : (w.removeLink name).sl = ⟨w.sl.arr, ((w.read w.sl).filter (fun l => l.name ≠ name)).length⟩ := by
      simp [removeLink, setSl, setArr, setObj, World.sl]
    obtain ⟨tl, ht, hne⟩ := h.seen
    obtain ⟨tl', ht'⟩ := h.live
    have hsub : ∀ l ∈ tl', l ∈ tl := by
      intro l hl
      have hp : (w.read w.sl) <+: (w.read s) := by
        have e1 : w.read w.sl = ((w.arrs w.sl.arr).take s.len).take w.sl.len := by rw [read, List.take_take, Nat.min_eq_left h.len]
        rw [e1, read, h.arr]; exact List.take_prefix _ _
      rw [ht, ht', List.cons_prefix_cons] at hp
      exact hp.2.subset hl
    have href : (w.read w.sl).filter (fun l => l.name ≠ name) = x :: tl'.filter (fun l => l.name ≠ name) := by
      rw [ht', List.filter_cons_of_pos (by simpa using hn.symm)]
    refine ⟨hi', hb, ?_, ?_, ?_, ?_, ?_⟩
    · rw [e]; exact hl1.fits h.fits
    · rw [e]; change _ = (w.removeLink name).sl.arr; rw [hsl]; exact h.arr
    · rw [e]; change (w.removeLink name).sl.len ≤ _; rw [hsl]
      refine le_trans (List.length_filter_le _ _) (le_trans ?_ h.len)
      simp [read]
    · rw [e]; change ∃ tl, (w.removeLink name).read s = _ ∧ _
      rw [removeLink_read h.inv.mem name h.arr h.len, href, ht]
      refine ⟨tl'.filter (fun l => l.name ≠ name) ++ tl.drop (tl'.filter (fun l => l.name ≠ name)).length, by simp, ?_⟩
      intro l hl
      rcases List.mem_append.mp hl with hl | hl
      · exact hne l (hsub l (List.mem_of_mem_filter hl))
      · exact hne l (List.mem_of_mem_drop hl)
    · rw [e]; change ∃ tl, (w.removeLink name).read (w.removeLink name).sl = _
      have := congrArg (fun p => p.2.1) hf1
      simp only [face] at this
      rw [this, href]
      exact ⟨_, rfl⟩

theorem each_missed {env : Env} {room : Nat → Nat} {s : Slice} {x : Link} : ∀ (n i : Nat) (w : World), 1 ≤ i → Missed w s x →
    (∀ l ∈ (each env room clearing s n i w).1, l.name ≠ x.name) ∧ Missed (each env room clearing s n i w).2 s x := by
  intro n
  induction n with
  | zero => intro i w _ h; exact ⟨by simp [each], h⟩
  | succ n ih =>
    intro i w hi h
    cases hg : (w.read s)[i]? with
    | none => rw [each, hg]; exact ⟨by simp, h⟩
    | some l =>
      obtain ⟨tl, ht, hne⟩ := h.seen
      have hl : l.name ≠ x.name := by
        obtain ⟨j, rfl⟩ : ∃ j, i = j + 1 := ⟨i - 1, by omega⟩
        rw [ht, List.getElem?_cons_succ] at hg
        exact hne l (List.mem_of_getElem? hg)
      obtain ⟨h1, h2⟩ := ih (i + 1) _ (by omega) (missed_step (env := env) (room := room) h hl)
      rw [each, hg]
      refine ⟨?_, h2⟩
      intro l' hl'
      rcases List.mem_cons.mp hl' with rfl | hl'
      · exact hl
      · exact h1 l' hl'

end World
end Unixfs.Dir
