import Verif.Import.Loose
import Verif.Mod.Kin
import Verif.Mod.DagLemmas
import Mathlib.Data.List.Forall2

/-! # The shape of files after many edits (C97)

The definitions in this file belong to proofs; they model no code.
-/

namespace Unixfs.Import.Trickle
open Unixfs.Spec

/-- A DAG of height at most `H` with at most `W` links per node. -/
def Base (W : Nat) : Nat → Node → Prop
  | 0, n => n.links = []
  | H + 1, n => n.links.length ≤ W ∧ ∀ l ∈ n.links, Base W H l.target

theorem heightL_le {k : Nat} : ∀ (ls : List Link), (∀ l ∈ ls, height l.target ≤ k) → heightL ls ≤ k + 1
  | [], _ => by simp [heightL]
  | .mk a b n :: ls, h => by
    have h1 := h (.mk a b n) (by simp)
    have h2 := heightL_le ls (fun l hl => h l (by simp [hl]))
    simp only [Link.target] at h1
    simp only [heightL]
    omega

theorem height_le {k : Nat} {n : Node} (h : ∀ l ∈ n.links, height l.target ≤ k) : height n ≤ k + 1 := by
  cases n with
  | proto d ls b => exact heightL_le ls h
  | raw => simp [height]
  | other => simp [height]

theorem heightL_ge : ∀ (ls : List Link) (l : Link), l ∈ ls → height l.target + 1 ≤ heightL ls
  | .mk a b n :: ls, l, h => by
    simp only [heightL]
    rcases List.mem_cons.mp h with rfl | h
    · simp only [Link.target]; omega
    · have := heightL_ge ls l h; omega

theorem height_ge {n : Node} {l : Link} (h : l ∈ n.links) : height l.target + 1 ≤ height n := by
  cases n with
  | proto d ls b => exact heightL_ge ls l h
  | raw => simp [Node.links] at h
  | other => simp [Node.links] at h

theorem height_nil {n : Node} (h : n.links = []) : height n = 0 := by
  cases n with
  | proto d ls b => simp only [Node.links] at h; subst h; simp [height, heightL]
  | raw => rfl
  | other => rfl

theorem Base.nil {W H : Nat} {n : Node} (h : n.links = []) : Base W H n := by
  cases H with
  | zero => exact h
  | succ H => exact ⟨by rw [h]; simp, by rw [h]; simp⟩

theorem Base.of {W : Nat} : ∀ {H : Nat} {n : Node}, height n ≤ H → (∀ x, Reach n x → x.links.length ≤ W) → Base W H n
  | 0, n, h, hw => by
    by_contra hne
    obtain ⟨l, hl⟩ := List.exists_mem_of_ne_nil _ hne
    have := height_ge hl
    omega
  | H + 1, n, h, hw => by
    refine ⟨hw n (.refl _), fun l hl => Base.of ?_ (fun x hx => hw x (.step hl hx))⟩
    have := height_ge hl
    omega

theorem Base.bounds {W : Nat} : ∀ {H : Nat} {n : Node}, Base W H n → height n ≤ H ∧ ∀ x, Reach n x → x.links.length ≤ W
  | 0, n, h => by
    refine ⟨by rw [height_nil h], fun x hx => ?_⟩
    cases hx with
    | refl => rw [show n.links = [] from h]; simp
    | step hl _ => rw [show n.links = [] from h] at hl; simp at hl
  | H + 1, n, h => by
    refine ⟨height_le (fun l hl => (h.2 l hl).bounds.1), fun x hx => ?_⟩
    cases hx with
    | refl => exact h.1
    | step hl hr => exact (h.2 _ hl).bounds.2 x hr

theorem Base.mono {W W' : Nat} (hW : W ≤ W') : ∀ {H H' : Nat} {n : Node}, H ≤ H' → Base W H n → Base W' H' n
  | 0, _, _, _, h => .nil h
  | H + 1, 0, _, hH, _ => by omega
  | H + 1, H' + 1, n, hH, h => ⟨le_trans h.1 hW, fun l hl => (h.2 l hl).mono hW (by omega)⟩

theorem Loose.base {m : Nat} : ∀ {D : Nat} {n : Node}, Loose m D n → Base (m + 4 * (D - 1)) D n
  | 0, n, h => h.2
  | D + 1, n, h => by
    refine ⟨h.2.1, fun l hl => ?_⟩
    obtain ⟨i, hi⟩ := List.getElem?_of_mem hl
    obtain ⟨h1, h2, _⟩ := h.2.2 i l hi
    by_cases hm : i < m
    · exact .nil (h1 hm)
    · exact (h2 (by omega)).base.mono (by omega) (le_refl _)

/-- The shape of the root. -/
theorem Root.bounds {m W H : Nat} {n : Node} (h : Root m (Base W H) n) (hm : 0 < m) :
    height n ≤ H + 3 * Nat.log2 (leaves n).length + 1 ∧ ∀ x, Reach n x → x.links.length ≤ max W (m + 12 * Nat.log2 (leaves n).length) := by
  by_cases hl : n.links.length ≤ m
  · have : Base (max W m) (H + 1) n := by
      refine ⟨by omega, fun l hl' => ?_⟩
      obtain ⟨i, hi⟩ := List.getElem?_of_mem hl'
      have hlt : i < n.links.length := by by_contra hn; rw [List.getElem?_eq_none (by omega)] at hi; cases hi
      exact ((h.shape i l hi).1 (by omega)).mono (by omega) (le_refl _)
    exact ⟨by have := this.bounds.1; omega, fun x hx => by have := this.bounds.2 x hx; omega⟩
  · obtain ⟨j, hj⟩ : ∃ j, j = (n.links.length - 1 - m) / 4 + 1 := ⟨_, rfl⟩
    have hb : Base (max W (m + 4 * j)) (max H (j + 1) + 1) n := by
      refine ⟨by omega, fun l hl' => ?_⟩
      obtain ⟨i, hi⟩ := List.getElem?_of_mem hl'
      have hlt : i < n.links.length := by by_contra hn; rw [List.getElem?_eq_none (by omega)] at hi; cases hi
      obtain ⟨h1, h2, _⟩ := h.shape i l hi
      by_cases him : i < m
      · exact (h1 him).mono (by omega) (by omega)
      · have hk := kd_of (m := m) (i := i) (by omega)
        exact (h2 (by omega)).base.mono (by omega) (by omega)
    have hcnt : n.links.length ≤ (leaves n).length := le_trans (length_le_cntL _) (cnt_ge n)
    have hlo : 2 * lo j ≤ (leaves n).length := by
      by_cases h4 : 4 ≤ j
      · have := some_cnt 4 n.links (m + 4 * (j - 2)) (lo (j - 3)) (by
          intro i l hi h1 h2
          have := (h.shape i l hi).2.2 (by omega) (.inl (by omega))
          rw [kd_of (by omega)] at this
          rwa [show (i - m) / 4 + 1 - 2 = j - 3 by omega] at this) (by omega)
        have hc := cnt_ge n
        rw [show j = (j - 3) + 3 by omega, lo_three]
        unfold cnt at hc
        omega
      · by_cases h3 : j = 3
        · rw [h3, show lo 3 = 2 from rfl]; omega
        · rw [lo_small (by omega)]; omega
    have hlog : j / 3 + 1 ≤ Nat.log2 (leaves n).length := by
      rw [Nat.le_log2 (by omega), pow_succ]
      unfold lo at hlo
      omega
    exact ⟨by have := hb.bounds.1; omega, fun x hx => by have := hb.bounds.2 x hx; omega⟩

end Unixfs.Import.Trickle

namespace Unixfs.Mod
open Unixfs.Spec Unixfs.Import Unixfs.Import.Trickle

variable {env : Env}

/-! ### Writing over bytes -/

/-- A node with the same shape. -/
structure Alike (m : Nat) (n n' : Node) : Prop where
  loose : ∀ D, Loose m D n → Loose m D n'
  counted : Counted n → Counted n'
  cnt : cnt n' = cnt n
  base : ∀ W H, Base W H n → Base W H n'
  root : ∀ W H, Root m (Base W H) n → Root m (Base W H) n'

theorem Alike.refl {m : Nat} (n : Node) : Alike m n n := ⟨fun _ h => h, id, rfl, fun _ _ h => h, fun _ _ h => h⟩

/-- A leaf for a leaf. -/
theorem Alike.leaf {m : Nat} {n n' : Node} (h : n.links = []) (h' : n'.links = []) (hc : Counted n → Counted n') : Alike m n n' := by
  have h1 : ∀ x : Node, x.links = [] → Trickle.cnt x = 1 := by
    intro x hx
    cases x with
    | proto d ls b => simp only [Node.links] at hx; subst hx; simp [Trickle.cnt, leaves]
    | raw => simp [Trickle.cnt, leaves]
    | other => simp [Trickle.cnt, leaves]
  refine ⟨?_, hc, by rw [h1 _ h, h1 _ h'], fun _ _ _ => .nil h', fun W H hr => ⟨hc hr.counted, by rw [h']; exact Shape.nil⟩⟩
  intro D hD
  cases D with
  | zero => exact ⟨hc hD.1, h'⟩
  | succ D => exact ⟨hc hD.1, by rw [h']; simp, by rw [h']; exact Shape.nil⟩

theorem shape_alike {m s : Nat} {Z : Node → Prop} {U : Nat → Node → Prop} {c : Prop} {ls ls' : List Link} (h : List.Forall₂ (fun l l' => Alike m l.target l'.target) ls ls')
    (hZ : ∀ a b, Alike m a b → Z a → Z b) (hU : ∀ i a b, Alike m a b → U i a → U i b) (hs : Shape m s Z U c ls) : Shape m s Z U c ls' := by
  intro i l' hl'
  have hlen := h.length_eq
  have hi : i < ls.length := by by_contra hn; rw [List.getElem?_eq_none (by omega)] at hl'; cases hl'
  obtain ⟨l, hl⟩ : ∃ l, ls[i]? = some l := ⟨_, List.getElem?_eq_getElem hi⟩
  have ha : Alike m l.target l'.target := by
    rw [List.getElem?_eq_some_iff] at hl hl'
    obtain ⟨_, rfl⟩ := hl
    obtain ⟨_, rfl⟩ := hl'
    exact h.get hi (by omega)
  obtain ⟨h1, h2, h3⟩ := hs i l hl
  exact ⟨fun him => hZ _ _ ha (h1 him), fun him => hU _ _ _ ha (h2 him), fun him hc => by rw [ha.cnt]; exact h3 him (by rw [hlen]; exact hc)⟩

theorem cntL_alike {m : Nat} {ls ls' : List Link} (h : List.Forall₂ (fun l l' => Alike m l.target l'.target) ls ls') : cntL ls' = cntL ls := by
  induction h with
  | nil => rfl
  | cons h _ ih => rw [cntL_cons, cntL_cons, ih, h.cnt]

/-- The links of a node replaced. -/
theorem Alike.links {m : Nat} {d : Bytes} {b : Builder} {ls ls' : List Link} (h : List.Forall₂ (fun l l' => Alike m l.target l'.target) ls ls') : Alike m (.proto d ls b) (.proto d ls' b) := by
  have hlen := h.length_eq
  have hc : Counted (.proto d ls b) → Counted (.proto d ls' b) := by
    intro hc msg hm; rw [hc msg hm, hlen]
  have hleafy : ∀ a b : Node, Alike m a b → Leafy a → Leafy b := fun a b hab ha => hab.base 0 0 ha
  refine ⟨?_, hc, ?_, ?_, fun W H hr => ⟨hc hr.counted, shape_alike h (fun a b hab => hab.base W H) (fun i a b hab => hab.loose _) hr.shape⟩⟩
  · intro D hD
    cases D with
    | zero =>
      have : ls = [] := hD.2
      subst this
      cases h
      exact hD
    | succ D =>
      exact ⟨hc hD.1, by have := hD.2.1; simp only [Node.links] at this ⊢; omega, shape_alike h hleafy (fun i a b hab => hab.loose D) hD.2.2⟩
  · cases h with
    | nil => rfl
    | cons h hs =>
      rw [cnt_le_cntL _ (by simp [Node.links]), cnt_le_cntL _ (by simp [Node.links])]
      exact cntL_alike (.cons h hs)
  · intro W H hB
    cases H with
    | zero =>
      have : ls = [] := hB
      subst this
      cases h
      exact hB
    | succ H =>
      refine ⟨by have := hB.1; simp only [Node.links] at this ⊢; omega, fun l' hl' => ?_⟩
      obtain ⟨i, hi, rfl⟩ := List.getElem_of_mem hl'
      simp only [Node.links] at hi ⊢
      exact (h.get (hlen ▸ hi) hi).base W H (hB.2 _ (List.getElem_mem _))

mutual
theorem modifyDag_alike (m : Nat) : ∀ (n : Node) (off : UInt64) (buf : Bytes) (svc : Svc) (r : Except Err Node) (x : Node) (rest : Bytes) (svc' : Svc),
    modifyDag env n off buf svc = (r, x, rest, svc') → Alike m n x ∧ ∀ k, r = .ok k → Alike m n k
  | .proto d [] b, off, buf, svc, r, x, rest, svc', h => by
    unfold modifyDag at h
    split at h
    · cases h; exact ⟨.refl _, by simp⟩
    next fs hfs =>
    split at h
    · cases h; exact ⟨.refl _, by simp⟩
    next hoff =>
    simp only at h
    split at h
    · cases h; exact ⟨.refl _, by simp⟩
    next bytes hb =>
    have key : Alike m (.proto d [] b) (.proto bytes [] b) := by
      refine .leaf rfl rfl ?_
      intro hc msg hm
      unfold FSNode.fromBytes at hfs
      split at hfs
      · cases hfs
      next m0 hm0 =>
      cases hfs
      have hw := Pb.Data.unmarshal_wf hm0
      obtain ⟨b', hb', hu⟩ := Pb.Data.unmarshal_marshal { m0 with data := m0.data.map (fun _ => (writeInto (FSNode.mk m0).data off.toNat buf).1) } ⟨hw.typ, by
        intro x hx
        simp only [Option.map_eq_some_iff] at hx
        obtain ⟨y, hy, rfl⟩ := hx
        have := hw.data y hy
        have hd : (FSNode.mk m0).data = y := by unfold FSNode.data Pb.Data.getData; simp only [hy, Option.getD_some]
        rw [hd] at hoff ⊢
        simp only [writeInto, List.length_append, List.length_take, List.length_drop]
        omega, hw.unrec⟩
      rw [FSNode.getBytes, hb'] at hb
      cases hb
      rw [hu] at hm
      cases hm
      exact hc m0 hm0
    split at h
    · cases h; exact ⟨.refl _, by simp⟩
    · cases h; exact ⟨.refl _, by intro k hk; cases hk; exact key⟩
  | .raw d b, off, buf, svc, r, x, rest, svc', h => by
    unfold modifyDag at h
    split at h
    · cases h; exact ⟨.refl _, by simp⟩
    simp only at h
    split at h
    · cases h; exact ⟨.refl _, by simp⟩
    · cases h; exact ⟨.refl _, by intro k hk; cases hk; exact .leaf rfl rfl (fun _ => trivial)⟩
  | .other d, off, buf, svc, r, x, rest, svc', h => by
    unfold modifyDag at h
    cases h; exact ⟨.refl _, by simp⟩
  | .proto d (l :: ls) b, off, buf, svc, r, x, rest, svc', h => by
    unfold modifyDag at h
    split at h
    · cases h; exact ⟨.refl _, by simp⟩
    split at h
    · next hm =>
      cases h
      exact ⟨.links (modifyLinks_alike m _ _ _ _ _ _ _ _ _ _ hm), by simp⟩
    · next hm =>
      have s1 := Alike.links (d := d) (b := b) (modifyLinks_alike m _ _ _ _ _ _ _ _ _ _ hm)
      split at h
      · cases h; exact ⟨s1, by simp⟩
      · cases h; exact ⟨s1, by intro k he; cases he; exact s1⟩
theorem modifyLinks_alike (m : Nat) : ∀ (bss : List UInt64) (ls : List Link) (cur off : UInt64) (buf : Bytes) (svc : Svc) (r : Option Err) (ls' : List Link)
    (rest : Bytes) (svc' : Svc), modifyLinks env bss ls cur off buf svc = (r, ls', rest, svc') → List.Forall₂ (fun l l' => Alike m l.target l'.target) ls ls'
  | [], ls, cur, off, buf, svc, r, ls', rest, svc', h => by unfold modifyLinks at h; cases h; exact List.forall₂_same.mpr (fun _ _ => .refl _)
  | bs :: bss, [], cur, off, buf, svc, r, ls', rest, svc', h => by unfold modifyLinks at h; cases h; exact .nil
  | bs :: bss, .mk nm sz child :: ls, cur, off, buf, svc, r, ls', rest, svc', h => by
    have hr : ∀ ls : List Link, List.Forall₂ (fun l l' => Alike m l.target l'.target) ls ls := fun ls => List.forall₂_same.mpr (fun _ _ => .refl _)
    unfold modifyLinks at h
    split at h
    · split at h
      · cases h; exact hr _
      · split at h
        · cases h; exact hr _
        · next hm =>
          have s2 := modifyDag_alike m child _ _ _ _ _ _ _ hm
          split at h
          · cases h
            exact .cons (s2.2 _ rfl) (hr _)
          · split at h
            next hr =>
            cases h
            exact .cons (s2.2 _ rfl) (modifyLinks_alike m bss ls _ _ _ _ _ _ _ _ hr)
    · split at h
      next hr =>
      cases h
      exact .cons (.refl _) (modifyLinks_alike m bss ls _ _ _ _ _ _ _ _ hr)
end

/-! ### Cutting off -/

/-- A node that was cut off. -/
structure Cut (m : Nat) (n n' : Node) : Prop where
  loose : ∀ D, Loose m D n → Loose m D n'
  base : ∀ W H, Base W H n → Base W H n'
  root : ∀ W H, Root m (Base W H) n → Root m (Base W H) n'

theorem Cut.leaf {m : Nat} {n n' : Node} (h' : n'.links = []) (hc : Counted n') : Cut m n n' := by
  refine ⟨?_, fun _ _ _ => .nil h', fun W H hr => ⟨hc, by rw [h']; exact Shape.nil⟩⟩
  intro D hD
  cases D with
  | zero => exact ⟨hc, h'⟩
  | succ D => exact ⟨hc, by rw [h']; simp, by rw [h']; exact Shape.nil⟩

theorem shape_cut {m s : Nat} {Z : Node → Prop} {U : Nat → Node → Prop} {ls : List Link} {j : Nat} {l l' : Link} (hl : ls[j]? = some l) (hZ : Z l.target → Z l'.target) (hU : U j l.target → U j l'.target)
    (hs : Shape m s Z U False ls) : Shape m s Z U False (ls.take j ++ [l']) := by
  have hj : j < ls.length := by by_contra hn; rw [List.getElem?_eq_none (by omega)] at hl; cases hl
  have hlen : (ls.take j).length = j := by rw [List.length_take]; omega
  intro i x hx
  by_cases hi : i < j
  · rw [List.getElem?_append_left (by omega), List.getElem?_take, if_pos hi] at hx
    obtain ⟨h1, h2, h3⟩ := hs i x hx
    exact ⟨h1, h2, fun hm _ => h3 hm (.inl (by omega))⟩
  · have : i = j := by
      by_contra hn
      rw [List.getElem?_eq_none (by simp; omega)] at hx; cases hx
    subst this
    rw [List.getElem?_append_right (by omega), hlen, Nat.sub_self] at hx
    simp only [List.getElem?_cons_zero, Option.some.injEq] at hx
    subst hx
    obtain ⟨h1, h2, h3⟩ := hs i l hl
    refine ⟨fun h => hZ (h1 h), fun h => hU (h2 h), fun _ hc => ?_⟩
    rcases hc with hc | hc
    · simp [hlen] at hc
    · exact hc.elim

theorem Cut.links {m : Nat} {d d' : Bytes} {b : Builder} {ls : List Link} {j : Nat} {l : Link} {nm : Bytes} {md : Node} (hl : ls[j]? = some l) (h : Cut m l.target md)
    (hc : Counted (.proto d' (ls.take j ++ [makeLink nm md]) b)) : Cut m (.proto d ls b) (.proto d' (ls.take j ++ [makeLink nm md]) b) := by
  have hj : j < ls.length := by by_contra hn; rw [List.getElem?_eq_none (by omega)] at hl; cases hl
  refine ⟨?_, ?_, fun W H hr => ⟨hc, shape_cut hl (h.base W H) (h.loose _) hr.shape⟩⟩
  · intro D hD
    cases D with
    | zero =>
      have : ls = [] := hD.2
      subst this
      simp at hl
    | succ D =>
      exact ⟨hc, by have := hD.2.1; simp only [Node.links, List.length_append, List.length_take, List.length_cons, List.length_nil] at this ⊢; omega, shape_cut hl (h.base 0 0) (h.loose D) hD.2.2⟩
  · intro W H hB
    cases H with
    | zero =>
      have : ls = [] := hB
      subst this
      simp at hl
    | succ H =>
      refine ⟨by have := hB.1; simp only [Node.links, List.length_append, List.length_take, List.length_cons, List.length_nil] at this ⊢; omega, fun x hx => ?_⟩
      simp only [Node.links, List.mem_append, List.mem_singleton] at hx
      rcases hx with hx | rfl
      · exact hB.2 x (List.mem_of_mem_take hx)
      · exact h.base W H (hB.2 l (List.mem_of_getElem? hl))

mutual
theorem dagTruncate_cut (m : Nat) : ∀ (n : Node) (size : UInt64) (svc : Svc) (k : Node) (svc' : Svc), dagTruncate env n size svc = (.ok k, svc') → Cut m n k
  | .proto d [] b, size, svc, k, svc', h => by
    unfold dagTruncate at h
    split at h
    · cases h
    next fs hfs =>
    split at h
    · cases h
    · cases h
      refine .leaf rfl ?_
      intro msg hm
      unfold FSNode.fromBytes at hfs
      split at hfs
      · cases hfs
      next m0 hm0 =>
      cases hfs
      have hw := Pb.Data.unmarshal_wf hm0
      rw [wrapData_unmarshal _ (by
        intro x hx
        simp only [Option.map_eq_some_iff] at hx
        obtain ⟨y, hy, rfl⟩ := hx
        have := hw.data y hy
        simp only [List.length_take]
        omega)] at hm
      cases hm
      rfl
  | .raw d b, size, svc, k, svc', h => by
    unfold dagTruncate at h
    split at h
    · cases h
    · cases h; exact .leaf rfl trivial
  | .other d, size, svc, k, svc', h => by
    unfold dagTruncate at h
    cases h
  | .proto d (l :: ls) b, size, svc, k, svc', h => by
    unfold dagTruncate at h
    split at h
    · cases h
    next fs hfs =>
    split at h
    · cases h
    · next hm =>
      obtain ⟨j, x, h1, h2, h3, h4, h5⟩ := truncLinks_cut m _ _ _ _ _ _ _ _ _ _ hm
      split at h
      · cases h
      split at h
      · cases h
      · next bytes hb =>
        cases h
        rw [List.nil_append] at h2
        subst h2
        refine .links h1 h3 ?_
        intro msg hmsg
        unfold FSNode.fromBytes at hfs
        split at hfs
        · cases hfs
        next m0 hm0 =>
        cases hfs
        have hw := Pb.Data.unmarshal_wf hm0
        obtain ⟨b', hb', hu⟩ := Pb.Data.unmarshal_marshal _ (h4 ⟨hw.typ, hw.data, hw.unrec⟩)
        rw [FSNode.getBytes, hb'] at hb
        cases hb
        rw [hu] at hmsg
        cases hmsg
        have hj : j < (l :: ls).length := by by_contra hn; rw [List.getElem?_eq_none (by omega)] at h1; cases h1
        have h0 : (FSNode.mk m0).removeAllBlockSizes.numChildren = 0 := rfl
        rw [h0] at h5
        unfold FSNode.numChildren at h5
        simp only [List.length_append, List.length_take, List.length_cons, List.length_nil] at hj ⊢
        omega
theorem truncLinks_cut (m : Nat) : ∀ (ls : List Link) (cur size : UInt64) (fs : FSNode) (kept : List Link) (svc : Svc) (fs' : FSNode) (kept' : List Link) (md : Node) (svc' : Svc),
    truncLinks env ls cur size fs kept svc = (.ok (fs', kept', md), svc') →
    ∃ j l, ls[j]? = some l ∧ kept' = kept ++ ls.take j ∧ Cut m l.target md ∧ (fs.format.WF → fs'.format.WF) ∧ fs'.numChildren = fs.numChildren + j + 1
  | [], cur, size, fs, kept, svc, fs', kept', md, svc', h => by unfold truncLinks at h; cases h
  | .mk nm sz child :: ls, cur, size, fs, kept, svc, fs', kept', md, svc', h => by
    unfold truncLinks at h
    split at h
    · cases h
    split at h
    · cases h
    split at h
    · split at h
      · cases h
      · next hm =>
        cases h
        refine ⟨0, _, rfl, by simp, dagTruncate_cut m child _ _ _ _ hm, fun hw => ⟨hw.typ, hw.data, hw.unrec⟩, ?_⟩
        simp [FSNode.numChildren, FSNode.addBlockSize, FSNode.updateFilesize]
    · obtain ⟨j, l, h1, h2, h3, h4, h5⟩ := truncLinks_cut m ls _ _ _ _ _ _ _ _ _ h
      refine ⟨j + 1, l, by simpa using h1, by rw [h2]; simp, h3, fun hw => h4 ⟨hw.typ, hw.data, hw.unrec⟩, ?_⟩
      rw [h5]
      simp [FSNode.numChildren, FSNode.addBlockSize, FSNode.updateFilesize]
      omega
end

/-! ### All calls of a modifier -/

/-- A property of the current node that all calls keep. -/
structure Stable (env : Env) (T : Node → Prop) : Prop where
  modify : ∀ {n off buf svc r x rest svc'}, modifyDag env n off buf svc = (r, x, rest, svc') → T n → T x ∧ ∀ k, r = .ok k → T k
  trunc : ∀ {n size svc k svc'}, dagTruncate env n size svc = (.ok k, svc') → T n → T k
  append : ∀ {dm : DM} {chunks fin k svc'}, dm.appendData env chunks fin = (.ok k, svc') → T dm.cur → T k
  left : ∀ {dm : DM} {size : Nat} {e svc'}, dm.appendData env (zeroChunks size) none = (.error e, svc') → T dm.cur → T (dm.appendLeft env (zeroChunks size) none).1
  other : T (.other [])

variable {T : Node → Prop}

theorem expandSparse_stable (hS : Stable env T) {dm dm' : DM} {size : Int} {r : Except Err Unit} (h : dm.expandSparse env size = (r, dm')) (hm : T dm.cur) : T dm'.cur := by
  unfold DM.expandSparse at h
  split at h
  · next ha =>
    cases h
    exact hS.left ha hm
  · next ha =>
    split at h
    cases h
    exact hS.append ha hm

theorem syncTail_stable (hS : Stable env T) {dm dm' : DM} {k : Nat} {r : Except Err Unit} (h : dm.syncTail env k = (r, dm')) (hm : T dm.cur) : T dm'.cur := by
  unfold DM.syncTail at h
  simp only at h
  split at h
  · cases h; exact hm
  split at h
  · cases h; exact hS.other
  · next ha =>
    have s := hS.append ha hm
    split at h <;> cases h <;> exact s

theorem syncModify_stable (hS : Stable env T) {dm dm' : DM} {k : Nat} {r : Except Err Unit} (h : dm.syncModify env k = (r, dm')) (hm : T dm.cur) : T dm'.cur := by
  unfold DM.syncModify at h
  split at h
  · next hmd =>
    cases h
    exact (hS.modify hmd hm).1
  · next hmd =>
    have s := hS.modify hmd hm
    split at h
    · cases h; exact hS.other
    · exact syncTail_stable hS h (s.2 _ rfl)

theorem sync_stable (hS : Stable env T) {dm dm' : DM} {r : Except Err Unit} (h : dm.sync env = (r, dm')) (hm : T dm.cur) : T dm'.cur := by
  unfold DM.sync at h
  split at h
  · cases h; exact hm
  simp only at h
  split at h
  · cases h; exact hm
  split at h
  · split at h
    · next he => cases h; exact expandSparse_stable hS he hm
    · next he => exact syncModify_stable hS h (expandSparse_stable hS he hm)
  · exact syncModify_stable hS h hm

theorem write_stable (hS : Stable env T) {dm : DM} {b : Bytes} (hm : T dm.cur) : T (dm.write env b).2.cur := by
  unfold DM.write
  simp only
  split
  · split
    · next he => exact sync_stable hS he hm
    · next he => exact sync_stable hS he hm
  · exact hm

theorem writeAt_stable (hS : Stable env T) {dm : DM} {b : Bytes} {off : Int} (hm : T dm.cur) : T (dm.writeAt env b off).2.cur := by
  unfold DM.writeAt
  split
  · split
    · exact write_stable hS hm
    · exact write_stable hS hm
  split
  · split
    · exact hm
    · next sz _ =>
      have : ∀ p : Except Err Unit × DM, (if off > sz then dm.expandSparse env (i64 (off - sz)) else (.ok (), dm)) = p → T p.2.cur := by
        intro p hp
        split at hp
        · exact expandSparse_stable (r := p.1) hS hp hm
        · subst hp; exact hm
      split
      · next he => exact this _ he
      · next he =>
        have h1 := this _ he
        split
        · next hs => exact sync_stable hS hs h1
        · next dm2 hs => exact write_stable (dm := { dm2 with ws := u64 off }) hS (sync_stable (dm' := dm2) hS hs h1)
  · exact write_stable hS hm

theorem readOpen_stable {dm : DM} {pos : Int} (hm : T dm.cur) : T (dm.readOpen env pos).2.cur := by
  unfold DM.readOpen
  split
  · exact hm
  · simp only
    repeat' split
    all_goals exact hm

theorem readN_stable (hS : Stable env T) {dm : DM} {k : Nat} (hm : T dm.cur) : T (dm.readN env k).2.cur := by
  unfold DM.readN
  split
  · next hs => exact sync_stable hS hs hm
  · next dm1 hs =>
    have h1 := sync_stable hS hs hm
    have : ∀ p, DM.readPrep env dm1 = p → T p.2.cur := by
      intro p hp
      unfold DM.readPrep at hp
      split at hp
      · subst hp; exact h1
      · subst hp; exact readOpen_stable h1
    split
    · next he => exact this _ he
    · next he => exact this _ he

theorem seekTail_stable (hS : Stable env T) {dm : DM} {sz : Int} {new : UInt64} {pos off wh : Int} (hm : T dm.cur) : T (dm.seekTail env sz new pos off wh).2.cur := by
  unfold DM.seekTail
  have : ∀ p : Except Err Unit × DM, (if pos > sz then dm.expandSparse env (i64 (pos - sz)) else (.ok (), dm)) = p → T p.2.cur := by
    intro p hp
    split at hp
    · exact expandSparse_stable (r := p.1) hS hp hm
    · subst hp; exact hm
  split
  · next he => exact this _ he
  · next he =>
    split
    · exact this _ he
    · exact this _ he

theorem seek_stable (hS : Stable env T) {dm : DM} {off wh : Int} (hm : T dm.cur) : T (dm.seek env off wh).2.cur := by
  unfold DM.seek
  split
  · next hs => exact sync_stable hS hs hm
  · next dm1 hs =>
    have h1 := sync_stable hS hs hm
    split
    · exact h1
    · split
      · exact h1
      · exact seekTail_stable hS h1

theorem truncate_stable (hS : Stable env T) {dm : DM} {size : Int} (hm : T dm.cur) : T (dm.truncate env size).2.cur := by
  unfold DM.truncate
  split
  · next hs => exact sync_stable hS hs hm
  · next dm1 hs =>
    have h1 := sync_stable hS hs hm
    split
    · exact h1
    split
    · exact h1
    split
    · exact expandSparse_stable (r := _) hS rfl h1
    split
    · exact h1
    · next ht =>
      have s := hS.trunc ht h1
      split
      · dsimp only
        split
        · exact s
        · exact h1
      · exact s

theorem step_stable (hS : Stable env T) {dm : DM} (op : MOp) (hm : T dm.cur) : T (dm.step env op).2.cur := by
  cases op with
  | write b => exact write_stable hS hm
  | writeAt b off => exact writeAt_stable hS hm
  | read k => exact readN_stable hS hm
  | seek off wh => exact seek_stable hS hm
  | truncate s => exact truncate_stable hS hm
  | sync => exact sync_stable (r := _) hS rfl hm
  | getNode =>
    have : T (dm.getNode env).2.cur := by
      unfold DM.getNode
      split
      · next hs => exact sync_stable hS hs hm
      · next hs => exact sync_stable hS hs hm
    simp only [DM.step]
    split
    · next h => rw [h] at this; exact this
    · next h => rw [h] at this; exact this
  | size => exact hm
  | hasChanges => exact hm

/-- The nodes that a history hands out. -/
theorem run_stable (hS : Stable env T) : ∀ (ops : List MOp) (dm : DM), T dm.cur → ∀ r ∈ (dm.run env ops).1, ∀ n, r.node = some n → T n
  | [], _, _ => by simp [DM.run]
  | op :: ops, dm, hm => by
    have hs := step_stable hS op hm
    have ih := run_stable hS ops _ hs
    intro r hr n hn
    simp only [DM.run, List.mem_cons] at hr
    rcases hr with rfl | hr
    · cases op with
      | getNode =>
        simp only [DM.step] at hn
        split at hn
        · next k dm' h =>
          cases hn
          have : (dm.step env .getNode).2 = dm' := by simp [DM.step, h]
          rw [this] at hs
          have : n = dm'.cur := by
            unfold DM.getNode at h
            split at h <;> cases h
            rfl
          rw [this]; exact hs
        · cases hn
      | write b => simp only [DM.step, MRes.num] at hn; split at hn <;> cases hn
      | writeAt b off => simp only [DM.step, MRes.num] at hn; split at hn <;> cases hn
      | read k => cases hn
      | seek off wh => simp only [DM.step, MRes.num] at hn; split at hn <;> cases hn
      | truncate s => simp only [DM.step, MRes.unit] at hn; split at hn <;> cases hn
      | sync => simp only [DM.step, MRes.unit] at hn; split at hn <;> cases hn
      | size => simp only [DM.step, MRes.num] at hn; split at hn <;> cases hn
      | hasChanges => cases hn
    · exact ih r hr n hn

/-- The shape of the root. -/
theorem root_stable (W H : Nat) (hd : AppendsStored env) : Stable env (Root defaultLinksPerBlock (Base W H)) where
  modify := fun h hn => ⟨(modifyDag_alike _ _ _ _ _ _ _ _ _ h).1.root W H hn, fun k hk => ((modifyDag_alike _ _ _ _ _ _ _ _ _ h).2 k hk).root W H hn⟩
  trunc := fun h hn => (dagTruncate_cut _ _ _ _ _ _ h).root W H hn
  append := by
    intro dm chunks fin k svc' h hn
    unfold DM.appendData at h
    split at h
    · cases h
    split at h
    · cases h
    · next db hnew =>
      split at h
      · cases h
      · next n' db' hA =>
        cases h
        exact append_loose hA hn (fresh_kin hnew).2.2 (fun _ h => .nil h)
  left := fun h hn => by rw [left_zeros hd h]; exact hn
  other := ⟨trivial, Shape.nil⟩

end Unixfs.Mod
