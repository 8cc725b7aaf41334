import Verif.Mod.FileLemmas
import Verif.Mod.Crash
import Verif.Spec.Range

/-! # Which blocks an edit fetches

The definitions in this file belong to proofs; they model no code.
-/

namespace Unixfs.Mod
open Unixfs Unixfs.Import Unixfs.Spec

/-- `Overlaps` for a list of links whose bytes begin at `base`. -/
def OverL (ls : List Link) (base a b : Nat) (x : Node) : Prop :=
  ∃ pre l post p s, ls = pre ++ l :: post ∧ contentL pre = some p ∧ At l.target s x ∧
    base + p.length + s < b ∧ a < base + p.length + s + contentLen x

theorem OverL.over {n : Node} {a b : Nat} {x : Node} (h : OverL n.links 0 a b x) : Overlaps n a b x := by
  obtain ⟨pre, l, post, p, s, hl, hp, ha, h1, h2⟩ := h
  exact ⟨p.length + s, .child hl hp ha, by omega, by omega⟩

theorem OverL.head {l : Link} {ls : List Link} {base a b : Nat} {x : Node} (h : Overlaps l.target (a - base) (b - base) x) (hb : base ≤ a) : OverL (l :: ls) base a b x := by
  obtain ⟨s, ha, h1, h2⟩ := h
  refine ⟨[], l, ls, [], s, rfl, rfl, ha, ?_, ?_⟩
  · simp; omega
  · simp; omega

theorem OverL.tail {nm : Bytes} {sz : UInt64} {n : Node} {c : Bytes} {ls : List Link} {base a b : Nat} {x : Node} (hc : content n = some c)
    (h : OverL ls (base + c.length) a b x) : OverL (.mk nm sz n :: ls) base a b x := by
  obtain ⟨pre, l, post, p, s, hl, hp, ha, h1, h2⟩ := h
  refine ⟨.mk nm sz n :: pre, l, post, c ++ p, s, by rw [hl]; rfl, by simp [contentL, hc, hp], ha, ?_, ?_⟩
  · rw [List.length_append]; omega
  · rw [List.length_append]; omega

mutual
/-- `modifyDag` fetches only blocks with bytes in the range it writes to. -/
theorem modifyDag_needs (env : Env) : ∀ (n : Node) (off : UInt64) (buf : Bytes) (svc : Svc) (c : Bytes),
    SizesTrue n → content n = some c → c.length < 2 ^ 64 → off.toNat ≤ c.length → buf ≠ [] →
    ∀ e n' rest svc', modifyDag env n off buf svc = (.error e, n', rest, svc') → Refused env (Overlaps n off.toNat (off.toNat + buf.length)) e
  | .other _, _, _, _, _, hs, _, _, _, _ => hs.elim
  | .raw d b, off, buf, svc, c, hs, hc, hl, ho, hne => by
    intro e n' rest svc' h
    have h' := modifyDag_spec env (.raw d b) off buf svc c hs hc hl ho
    rw [h] at h'
    refine .inr ?_
    rcases h'.2 with ⟨he, t, x, hx, hg⟩ | h
    · rw [modifyDag] at h
      rw [content, Option.some.injEq] at hc
      rw [if_neg (by rw [hc]; omega)] at h
      dsimp only at h
      rcases Svc.add_cases env (.raw (writeInto d off.toNat buf).1 (b.withCodec Builder.rawCodec)) svc with ⟨s', h1, h2, h3⟩ | ⟨s', h1, h2, h3⟩ <;> rw [h1] at h <;> cases h
      cases he
    · exact h
  | .proto d [] b, off, buf, svc, c, hs, hc, hl, ho, hne => by
    intro e n' rest svc' h
    have h' := modifyDag_spec env (.proto d [] b) off buf svc c hs hc hl ho
    rw [h] at h'
    rcases h'.2 with ⟨he, t, x, hx, hg⟩ | h
    · rw [reach_leaf hx] at hg
      subst he
      exfalso
      rw [modifyDag] at h
      simp only [SizesTrue] at hs
      obtain ⟨m, hm, hf, -, hb, hfs, -⟩ := hs
      simp only [content, hm, hf, if_true, Option.some.injEq] at hc
      simp only [FSNode.fromBytes, hm] at h
      subst hc
      rw [if_neg (show ¬ (FSNode.data ⟨m⟩).length < off.toNat from Nat.not_lt.mpr ho)] at h
      split at h
      · rename_i e' he
        cases h
        simp only [FSNode.getBytes, Pb.Data.marshal] at he
        split at he <;> cases he
      · split at h
        · rename_i hadd
          rcases Svc.add_cases env (.proto _ [] b) svc with ⟨s', h1, h2, h3⟩ | ⟨s', h1, h2, h3⟩ <;> rw [h1] at hadd <;> cases hadd
          cases h
        · cases h
    · exact .inr h
  | .proto d (l :: ls) b, off, buf, svc, c, hs, hc, hl, ho, hne => by
    intro e n' rest svc' h
    have hs0 := hs
    simp only [SizesTrue] at hs
    obtain ⟨m, hm, hf, hd, hb, hfs, hsl⟩ := hs
    simp only [content] at hc
    have hL := modifyLinks_needs env (l :: ls) 0 off buf svc c hsl hc (by simpa using hl) (by simp) (by simpa using ho) hne
    rw [modifyDag] at h
    simp only [FSNode.fromBytes, hm, FSNode.blockSizes, hb] at h
    generalize modifyLinks env ((l :: ls).map (fun l => UInt64.ofNat (contentLen l.target))) (l :: ls) 0 off buf svc = R at hL h
    obtain ⟨r, ls', rest', s1⟩ := R
    cases r with
    | some e' =>
      cases h
      exact (hL _ _ _ _ rfl).mono (fun x hx => OverL.over (n := .proto d (l :: ls) b) hx)
    | none =>
      dsimp only at h
      rcases Svc.add_cases env (.proto d ls' b) s1 with ⟨s', h1, h2, h3⟩ | ⟨s', h1, h2, h3⟩
      · rw [h1] at h; cases h
      · rw [h1] at h; cases h; exact .inr ⟨rfl, .inl ⟨_, h3⟩⟩
theorem modifyLinks_needs (env : Env) : ∀ (ls : List Link) (cur off : UInt64) (buf : Bytes) (svc : Svc) (c : Bytes),
    SizesTrueL ls → contentL ls = some c → cur.toNat + c.length < 2 ^ 64 → cur.toNat ≤ off.toNat → off.toNat ≤ cur.toNat + c.length → buf ≠ [] →
    ∀ e ls' rest svc', modifyLinks env (ls.map (fun l => UInt64.ofNat (contentLen l.target))) ls cur off buf svc = (some e, ls', rest, svc') →
      Refused env (OverL ls cur.toNat off.toNat (off.toNat + buf.length)) e
  | [], cur, off, buf, svc, c, _, hc, hl, ho1, ho2, hne => by
    intro e ls' rest svc' h
    rw [List.map_nil, modifyLinks] at h
    cases h
  | .mk nm sz child :: ls, cur, off, buf, svc, c, hs, hc, hl, ho1, ho2, hne => by
    intro e ls' rest svc' h
    obtain ⟨hs1, hs2⟩ := hs
    obtain ⟨a, ha⟩ := sizesTrue_content hs1
    obtain ⟨b, hb⟩ := sizesTrueL_content hs2
    simp only [contentL, ha, hb, Option.some.injEq] at hc
    subst hc
    rw [List.length_append] at hl ho2
    rw [List.map_cons, modifyLinks] at h
    rw [show contentLen (Link.target (.mk nm sz child)) = a.length from contentLen_of ha] at h
    have hcur : (cur + UInt64.ofNat a.length).toNat = cur.toNat + a.length := uadd rfl (by omega)
    have hpos := List.length_pos_iff.mpr hne
    by_cases hlt : cur + UInt64.ofNat a.length > off
    · rw [if_pos hlt] at h
      have hlt' : off.toNat < cur.toNat + a.length := by rw [← hcur]; exact UInt64.lt_iff_toNat_lt.mp hlt
      rcases Svc.get_cases env child svc with ⟨s1, h1, h2⟩ | ⟨s1, h1, h2, h3⟩
      · rw [h1] at h
        dsimp only at h
        have hsub : (off - cur).toNat = off.toNat - cur.toNat := usub ho1
        have hM := modifyDag_spec env child (off - cur) buf s1 a hs1 ha (by omega) (by omega)
        have hN := modifyDag_needs env child (off - cur) buf s1 a hs1 ha (by omega) (by omega) hne
        rw [hsub] at hM hN
        revert hM hN h
        rcases modifyDag env child (off - cur) buf s1 with ⟨r, n', rest1, s2⟩
        intro h hM hN
        cases r with
        | error e' =>
          cases h
          refine (hN _ _ _ _ rfl).mono (fun x hx => OverL.head ?_ ho1)
          rw [show off.toNat + buf.length - cur.toNat = off.toNat - cur.toNat + buf.length by omega]
          exact hx
        | ok k =>
          dsimp only at h
          by_cases he : rest1.isEmpty
          · rw [if_pos he] at h; cases h
          · rw [if_neg he] at h
            have hr : rest1 = buf.drop (a.length - (off.toNat - cur.toNat)) := hM.rest
            have hrl : rest1.length = buf.length - (a.length - (off.toNat - cur.toNat)) := by rw [hr]; simp
            have hrp : rest1 ≠ [] := by simpa using he
            have hrp' := List.length_pos_iff.mpr hrp
            have hL := modifyLinks_needs env ls (cur + UInt64.ofNat a.length) (cur + UInt64.ofNat a.length) rest1 s2 b hs2 hb (by omega) (Nat.le_refl _) (by omega) hrp
            revert hL h
            rcases modifyLinks env (ls.map (fun l => UInt64.ofNat (contentLen l.target))) ls (cur + UInt64.ofNat a.length)
              (cur + UInt64.ofNat a.length) rest1 s2 with ⟨r, ls1, rest', s3⟩
            intro h hL
            cases r with
            | none => cases h
            | some e' =>
              cases h
              refine (hL _ _ _ _ rfl).mono (fun x hx => ?_)
              rw [hcur] at hx
              have := OverL.tail (nm := nm) (sz := sz) ha hx
              obtain ⟨pre, l, post, p, s, hl, hp, ha', h1, h2⟩ := this
              exact ⟨pre, l, post, p, s, hl, hp, ha', by omega, by omega⟩
      · rw [h1] at h
        cases h
        refine .inl ⟨rfl, _, child, OverL.head ⟨0, .here _, by omega, ?_⟩ ho1, h3⟩
        rw [contentLen_of ha]; omega
    · rw [if_neg hlt] at h
      have hge : cur.toNat + a.length ≤ off.toNat := by
        rw [← hcur]; exact Nat.le_of_not_lt (fun h => hlt (UInt64.lt_iff_toNat_lt.mpr h))
      have hL := modifyLinks_needs env ls (cur + UInt64.ofNat a.length) off buf svc b hs2 hb (by omega) (by omega) (by omega) hne
      revert hL h
      rcases modifyLinks env (ls.map (fun l => UInt64.ofNat (contentLen l.target))) ls (cur + UInt64.ofNat a.length) off buf svc with ⟨r, ls1, rest', s3⟩
      intro h hL
      cases r with
      | none => cases h
      | some e' =>
        cases h
        refine (hL _ _ _ _ rfl).mono (fun x hx => ?_)
        rw [hcur] at hx
        exact OverL.tail ha hx
end

theorem spine_cons {m : Nat} {n k : Node} {st : List Node} (hlen : k.links.length = n.links.length)
    (h : ∀ pre' l', k.links = pre' ++ [l'] → ∃ pre l, n.links = pre ++ [l] ∧
      (l'.target = l.target ∨ (l'.target ∈ st ∧ ∀ x, OnSpine m l'.target x → OnSpine m l.target x ∨ x ∈ st))) :
    ∀ x, OnSpine m k x → OnSpine m n x ∨ x ∈ st := by
  intro x hx
  cases hx with
  | last hl hm =>
    obtain ⟨pre, l, hn, h⟩ := h _ _ hl
    rw [hlen] at hm
    rcases h with h | ⟨h, -⟩
    · rw [h]; exact .inl (.last hn hm)
    · exact .inr h
  | down hl hm hx =>
    obtain ⟨pre, l, hn, h⟩ := h _ _ hl
    rw [hlen] at hm
    rcases h with h | ⟨-, h⟩
    · rw [h] at hx; exact .inl (.down hn hm hx)
    · exact (h x hx).imp (fun h => .down hn hm h) id

/-- Every block is there. -/
theorem complete_true : Complete (fun _ => True) := fun _ _ _ _ => trivial

theorem first_true (st : List Node) : ChildrenFirst (fun _ => True) st := fun _ _ _ _ _ _ => .inr trivial

theorem has_true (st : List Node) (ls : List Link) : Has (fun _ => True) st ls := fun _ _ => .inr trivial

theorem modifyDag_stores {env : Env} {n k x : Node} {off : UInt64} {buf rest : Bytes} {svc svc' : Svc} (h : modifyDag env n off buf svc = (.ok k, x, rest, svc')) :
    k ∈ svc'.stored := (modifyDag_went complete_true _ _ _ _ _ _ _ _ h (first_true _) (has_true _ _)).2.2 _ rfl

theorem modifyDag_grew {env : Env} {n x : Node} {r : Except Err Node} {off : UInt64} {buf rest : Bytes} {svc svc' : Svc}
    (h : modifyDag env n off buf svc = (r, x, rest, svc')) : svc.stored <+: svc'.stored :=
  (modifyDag_went complete_true _ _ _ _ _ _ _ _ h (first_true _) (has_true _ _)).1.grew

theorem modifyLinks_grew {env : Env} {bss : List UInt64} {ls ls' : List Link} {r : Option Err} {cur off : UInt64} {buf rest : Bytes} {svc svc' : Svc}
    (h : modifyLinks env bss ls cur off buf svc = (r, ls', rest, svc')) : svc.stored <+: svc'.stored :=
  (modifyLinks_went complete_true _ _ _ _ _ _ _ _ _ _ h (first_true _) (has_true _ _)).1.grew

/-- The last link of a list that was changed from `ls` to `ls'`. -/
def LastKept (m : Nat) (st : List Node) (ls ls' : List Link) : Prop :=
  ls'.length = ls.length ∧ ∀ pre' l', ls' = pre' ++ [l'] → ∃ pre l, ls = pre ++ [l] ∧
      (l'.target = l.target ∨ (l'.target ∈ st ∧ ∀ x, OnSpine m l'.target x → OnSpine m l.target x ∨ x ∈ st))

theorem LastKept.refl (m : Nat) (st : List Node) (ls : List Link) : LastKept m st ls ls := ⟨rfl, fun pre l h => ⟨pre, l, h, .inl rfl⟩⟩

theorem LastKept.cons {m : Nat} {st : List Node} {ls ls' : List Link} {a a' : Link} (h : LastKept m st ls ls')
    (ha : a'.target = a.target ∨ (a'.target ∈ st ∧ ∀ x, OnSpine m a'.target x → OnSpine m a.target x ∨ x ∈ st)) : LastKept m st (a :: ls) (a' :: ls') := by
  refine ⟨by simp [h.1], fun pre' l' he => ?_⟩
  cases pre' with
  | nil =>
    simp only [List.nil_append, List.cons.injEq] at he
    obtain ⟨rfl, rfl⟩ := he
    have : ls = [] := List.length_eq_zero_iff.mp (by rw [← h.1]; rfl)
    exact ⟨[], a, by rw [this]; rfl, ha⟩
  | cons q pre' =>
    simp only [List.cons_append, List.cons.injEq] at he
    obtain ⟨pre, l, hl, h⟩ := h.2 pre' l' he.2
    exact ⟨a :: pre, l, by rw [hl]; rfl, h⟩

mutual
/-- `modifyDag` leaves the path of last children as it was, or stores its new blocks. -/
theorem modifyDag_spine (env : Env) (m : Nat) : ∀ (n : Node) (off : UInt64) (buf : Bytes) (svc : Svc) (k x : Node) (rest : Bytes) (svc' : Svc),
    modifyDag env n off buf svc = (.ok k, x, rest, svc') → ∀ y, OnSpine m k y → OnSpine m n y ∨ y ∈ svc'.stored
  | .other _, _, _, _, _, _, _, _, h => by rw [modifyDag] at h; cases h
  | .raw d b, off, buf, svc, k, x, rest, svc', h => by
    rw [modifyDag] at h
    split at h
    · cases h
    dsimp only at h
    split at h
    · cases h
    · cases h
      intro y hy
      cases hy with
      | last hl _ => simp [Node.links] at hl
      | down hl _ _ => simp [Node.links] at hl
  | .proto d [] b, off, buf, svc, k, x, rest, svc', h => by
    rw [modifyDag] at h
    split at h
    · cases h
    split at h
    · cases h
    dsimp only at h
    split at h
    · cases h
    split at h
    · cases h
    · cases h
      intro y hy
      cases hy with
      | last hl _ => simp [Node.links] at hl
      | down hl _ _ => simp [Node.links] at hl
  | .proto d (l :: ls) b, off, buf, svc, k, x, rest, svc', h => by
    rw [modifyDag] at h
    split at h
    · cases h
    split at h
    · cases h
    · next hM =>
      split at h
      · cases h
      · next ha =>
        cases h
        have hL := modifyLinks_spine env m _ _ _ _ _ _ _ _ _ hM
        have hg := (add_went (S := fun _ => True) ha (first_true _) (has_true _ _)).1.grew
        refine spine_cons (n := .proto d (l :: ls) b) hL.1 (fun pre' l' he => ?_)
        obtain ⟨pre, l0, h1, h2⟩ := hL.2 pre' l' he
        exact ⟨pre, l0, h1, h2.imp id (fun ⟨h3, h4⟩ => ⟨hg.subset h3, fun y hy => (h4 y hy).imp id (fun h => hg.subset h)⟩)⟩
theorem modifyLinks_spine (env : Env) (m : Nat) : ∀ (bss : List UInt64) (ls : List Link) (cur off : UInt64) (buf : Bytes) (svc : Svc) (ls' : List Link)
    (rest : Bytes) (svc' : Svc), modifyLinks env bss ls cur off buf svc = (none, ls', rest, svc') → LastKept m svc'.stored ls ls'
  | [], ls, cur, off, buf, svc, ls', rest, svc', h => by rw [modifyLinks] at h; cases h; exact .refl _ _ _
  | bs :: bss, [], cur, off, buf, svc, ls', rest, svc', h => by
    rw [modifyLinks] at h
    split at h
    · cases h
    · cases h; exact .refl _ _ _
  | bs :: bss, .mk nm sz child :: ls, cur, off, buf, svc, ls', rest, svc', h => by
    rw [modifyLinks] at h
    split at h
    · split at h
      · cases h
      split at h
      · cases h
      · next hM =>
        have hk := modifyDag_stores hM
        have hs := modifyDag_spine env m child _ _ _ _ _ _ _ hM
        split at h
        · cases h
          exact (LastKept.refl _ _ _).cons (.inr ⟨hk, hs⟩)
        · split at h
          next hR =>
          cases h
          have hg := modifyLinks_grew hR
          exact (modifyLinks_spine env m _ _ _ _ _ _ _ _ _ hR).cons (.inr ⟨hg.subset hk, fun y hy => (hs y hy).imp id (fun h => hg.subset h)⟩)
    · split at h
      next hR =>
      cases h
      exact (modifyLinks_spine env m _ _ _ _ _ _ _ _ _ hR).cons (.inl rfl)
end

/-- `BesideCut` for a list of links whose bytes begin at `base`. -/
def BesideL (ls : List Link) (base s : Nat) (x : Node) : Prop :=
  ∃ pre l post p, ls = pre ++ l :: post ∧ contentL pre = some p ∧ base + p.length ≤ s ∧
    (x = l.target ∨ BesideCut l.target (s - (base + p.length)) x)

theorem BesideL.beside {n : Node} {s : Nat} {x : Node} (hs : s < contentLen n) (h : BesideL n.links 0 s x) : BesideCut n s x := by
  obtain ⟨pre, l, post, p, hl, hp, h1, rfl | ⟨q, i, pre', l', post', a, hq, h2, h3, h4, h5, h6, rfl⟩⟩ := h
  · exact ⟨n, 0, pre, l, post, p, .here _, by omega, by omega, hl, hp, h1, rfl⟩
  · exact ⟨q, p.length + i, pre', l', post', a, .child hl hp hq, by omega, by omega, h4, h5, by omega, rfl⟩

theorem BesideL.tail {nm : Bytes} {sz : UInt64} {n : Node} {c : Bytes} {ls : List Link} {base s : Nat} {x : Node} (hc : content n = some c)
    (h : BesideL ls (base + c.length) s x) : BesideL (.mk nm sz n :: ls) base s x := by
  obtain ⟨pre, l, post, p, hl, hp, h1, h2⟩ := h
  refine ⟨.mk nm sz n :: pre, l, post, c ++ p, by rw [hl]; rfl, by simp [contentL, hc, hp], by rw [List.length_append]; omega, ?_⟩
  rw [List.length_append, ← Nat.add_assoc]; exact h2

mutual
/-- `dagTruncate` fetches only the children, up to the cut, of blocks with the cut in them. -/
theorem dagTruncate_needs (env : Env) : ∀ (n : Node) (size : UInt64) (svc : Svc) (c : Bytes),
    SizesTrue n → content n = some c → c.length < 2 ^ 64 → size.toNat < c.length →
    ∀ e svc', dagTruncate env n size svc = (.error e, svc') → Refused env (BesideCut n size.toNat) e
  | .other _, _, _, _, hs, _, _, _ => hs.elim
  | .raw d b, size, svc, c, hs, hc, hl, ho => by
    intro e svc' h
    simp only [content, Option.some.injEq] at hc
    subst hc
    rw [dagTruncate, if_neg (by omega)] at h
    cases h
  | .proto d [] b, size, svc, c, hs, hc, hl, ho => by
    intro e svc' h
    simp only [SizesTrue] at hs
    obtain ⟨m, hm, hf, -, hb, hfs, -⟩ := hs
    simp only [content, hm, hf, if_true, Option.some.injEq] at hc
    subst hc
    rw [dagTruncate] at h
    simp only [FSNode.fromBytes, hm] at h
    rw [if_neg (show ¬ (FSNode.data ⟨m⟩).length < size.toNat from Nat.not_lt.mpr (Nat.le_of_lt ho))] at h
    cases h
  | .proto d (l :: ls) b, size, svc, c, hs, hc, hl, ho => by
    intro e svc' h
    have hT := dagTruncate_spec env (.proto d (l :: ls) b) size svc c hs hc hl ho
    rw [h] at hT
    have hcl : contentLen (.proto d (l :: ls) b) = c.length := contentLen_of hc
    simp only [SizesTrue] at hs
    obtain ⟨m, hm, hf, hd, hb, hfs, hsl⟩ := hs
    simp only [content] at hc
    have hL := truncLinks_needs env (l :: ls) 0 size (FSNode.removeAllBlockSizes ⟨m⟩) [] svc c hsl hc (by simpa using hl) (by simp) (by simpa using ho)
    rw [dagTruncate] at h
    simp only [FSNode.fromBytes, hm] at h
    generalize truncLinks env (l :: ls) 0 size (FSNode.removeAllBlockSizes ⟨m⟩) [] svc = R at hL h
    obtain ⟨r, s1⟩ := R
    cases r with
    | error e' =>
      cases h
      exact (hL _ _ rfl).mono (fun x hx => BesideL.beside (n := .proto d (l :: ls) b) (by rw [hcl]; exact ho) hx)
    | ok r =>
      obtain ⟨fs', kept', k⟩ := r
      dsimp only at h
      rcases Svc.add_cases env k s1 with ⟨s', h1, h2, h3⟩ | ⟨s', h1, h2, h3⟩
      · rw [h1] at h
        dsimp only at h
        split at h
        · next hg =>
          cases h
          simp only [FSNode.getBytes, Pb.Data.marshal] at hg
          rcases hT.2 with ⟨he, -⟩ | ⟨he, -⟩ <;> subst he <;> split at hg <;> cases hg
        · cases h
      · rw [h1] at h; cases h; exact .inr ⟨rfl, .inl ⟨_, h3⟩⟩
theorem truncLinks_needs (env : Env) : ∀ (ls : List Link) (cur size : UInt64) (fs : FSNode) (kept : List Link) (svc : Svc) (c : Bytes),
    SizesTrueL ls → contentL ls = some c → cur.toNat + c.length < 2 ^ 64 → cur.toNat ≤ size.toNat → size.toNat < cur.toNat + c.length →
    ∀ e svc', truncLinks env ls cur size fs kept svc = (.error e, svc') → Refused env (BesideL ls cur.toNat size.toNat) e
  | [], cur, size, fs, kept, svc, c, _, hc, _, ho1, ho2 => by
    simp only [contentL, Option.some.injEq] at hc
    subst hc
    simp at ho2; omega
  | .mk nm sz child :: ls, cur, size, fs, kept, svc, c, hs, hc, hl, ho1, ho2 => by
    intro e svc' h
    obtain ⟨hs1, hs2⟩ := hs
    obtain ⟨a, ha⟩ := sizesTrue_content hs1
    obtain ⟨b, hb⟩ := sizesTrueL_content hs2
    simp only [contentL, ha, hb, Option.some.injEq] at hc
    subst hc
    rw [List.length_append] at hl ho2
    rw [truncLinks] at h
    rcases Svc.get_cases env child svc with ⟨s1, h1, h2⟩ | ⟨s1, h1, h2, h3⟩
    · rw [h1] at h
      simp only [fileSize_true hs1 ha] at h
      have hcur : (cur + UInt64.ofNat a.length).toNat = cur.toNat + a.length := uadd rfl (by omega)
      by_cases hlt : size < cur + UInt64.ofNat a.length
      · rw [if_pos hlt] at h
        have hlt' : size.toNat < cur.toNat + a.length := by rw [← hcur]; exact UInt64.lt_iff_toNat_lt.mp hlt
        have hsub : (size - cur).toNat = size.toNat - cur.toNat := usub ho1
        have hT := dagTruncate_needs env child (size - cur) s1 a hs1 ha (by omega) (by omega)
        rw [hsub] at hT
        generalize dagTruncate env child (size - cur) s1 = R at hT h
        obtain ⟨r, s2⟩ := R
        cases r with
        | error e' =>
          cases h
          exact (hT _ _ rfl).mono (fun x hx => ⟨[], .mk nm sz child, ls, [], rfl, rfl, by simpa using ho1, .inr (by simpa [Link.target] using hx)⟩)
        | ok k => cases h
      · rw [if_neg hlt] at h
        have hge : cur.toNat + a.length ≤ size.toNat := by
          rw [← hcur]; exact Nat.le_of_not_lt (fun h => hlt (UInt64.lt_iff_toNat_lt.mpr h))
        have hL := truncLinks_needs env ls (cur + UInt64.ofNat a.length) size (fs.addBlockSize (UInt64.ofNat a.length))
          (kept ++ [.mk nm sz child]) s1 b hs2 hb (by omega) (by omega) (by omega) _ _ h
        rw [hcur] at hL
        exact hL.mono (fun x hx => BesideL.tail ha hx)
    · rw [h1] at h
      cases h
      exact .inl ⟨rfl, _, child, ⟨[], .mk nm sz child, ls, [], rfl, rfl, by simpa using ho1, .inl rfl⟩, h3⟩
end

theorem appendData_grew {env : Env} {dm : DM} {chunks : List Bytes} {fin : Option Err} {r : Except Err Node} {svc' : Svc}
    (h : dm.appendData env chunks fin = (r, svc')) : dm.svc.stored <+: svc'.stored :=
  (appendData_went complete_true h ⟨first_true _, has_true _ _⟩).1.grew

theorem add_grew {env : Env} {s s' : Svc} {n : Node} {r : Except Err Unit} (h : s.add env n = (r, s')) : s.stored <+: s'.stored :=
  (add_went (S := fun _ => True) h (first_true _) (has_true _ _)).1.grew

theorem get_grew {env : Env} {s s' : Svc} {n : Node} {r : Except Err Unit} (h : s.get env n = (r, s')) : s.stored <+: s'.stored :=
  (get_went (S := fun _ => True) h (first_true _)).grew

theorem expandSparse_grew {env : Env} {dm dm' : DM} {size : Int} {r : Except Err Unit} (h : dm.expandSparse env size = (r, dm')) :
    dm.svc.stored <+: dm'.svc.stored := by
  unfold DM.expandSparse at h
  split at h
  · next ha => cases h; exact appendData_grew ha
  · next ha => cases h; exact (appendData_grew ha).trans (add_grew rfl)

theorem syncTail_grew {env : Env} {dm dm' : DM} {k : Nat} {r : Except Err Unit} (h : dm.syncTail env k = (r, dm')) : dm.svc.stored <+: dm'.svc.stored := by
  unfold DM.syncTail at h
  simp only at h
  split at h
  · cases h; exact List.prefix_rfl
  split at h
  · next ha => cases h; exact appendData_grew ha
  · next ha =>
    split at h
    · next hb => cases h; exact (appendData_grew ha).trans (add_grew hb)
    · next hb => cases h; exact (appendData_grew ha).trans (add_grew hb)

theorem syncModify_grew {env : Env} {dm dm' : DM} {k : Nat} {r : Except Err Unit} (h : dm.syncModify env k = (r, dm')) : dm.svc.stored <+: dm'.svc.stored := by
  unfold DM.syncModify at h
  split at h
  · next ha => cases h; exact modifyDag_grew ha
  · next ha =>
    split at h
    · next hb => cases h; exact (modifyDag_grew ha).trans (get_grew hb)
    · next hb => exact ((modifyDag_grew ha).trans (get_grew hb)).trans (syncTail_grew h)

/-- `Sync` forgets nothing that was stored. -/
theorem sync_grew {env : Env} {dm dm' : DM} {r : Except Err Unit} (h : dm.sync env = (r, dm')) : dm.svc.stored <+: dm'.svc.stored := by
  unfold DM.sync at h
  split at h
  · cases h; exact List.prefix_rfl
  simp only at h
  split at h
  · cases h; exact List.prefix_rfl
  split at h
  · split at h
    · next ha =>
      cases h
      have := expandSparse_grew ha
      exact this
    · next ha =>
      have := expandSparse_grew ha
      exact this.trans (syncModify_grew h)
  · have := syncModify_grew h
    exact this

/-- The blocks that `Sync` of the bytes `buf` at `off` needs of a file of length `len`. -/
def SyncNeeds (root : Node) (len off : Nat) (buf : Bytes) (x : Node) : Prop :=
  Overlaps root off (off + buf.length) x ∨ (len < off + buf.length ∧ OnSpine defaultLinksPerBlock root x)

theorem sync_needs {env : Env} (hsp : SplitOK env) {dm dm' : DM} {buf : Bytes} {c : Bytes} {e : Err} (hb : dm.buf = some buf) (hs : SizesTrue dm.cur)
    (hc : content dm.cur = some c) (hl : c.length < 2 ^ 63) (ho : dm.ws.toNat ≤ c.length) (hne : buf ≠ [])
    (hg : Growable defaultLinksPerBlock dm.cur ∨ dm.ws.toNat + buf.length ≤ c.length) (h : dm.sync env = (.error e, dm')) :
    Refused env (fun x => SyncNeeds dm.cur c.length dm.ws.toNat buf x ∨ x ∈ dm'.svc.stored) e ∨
    (c.length < dm.ws.toNat + buf.length ∧ ((env.split (buf.drop (c.length - dm.ws.toNat))).2 = some e ∨
      (e = .sizeLimitExceeded ∧ ¬AllFit (env.split (buf.drop (c.length - dm.ws.toNat))).1))) := by
  obtain ⟨cur, ws, cw, bf, pfx, rawLeaves, read, svc⟩ := dm
  dsimp only at hb hs hc ho hg ⊢
  subst hb
  have hlen : (UInt64.ofNat c.length).toNat = c.length := by rw [UInt64.toNat_ofNat', Nat.mod_eq_of_lt (by omega)]
  unfold DM.sync at h
  simp only [fileSize_true hs hc] at h
  rw [if_neg (fun hlt => by have := UInt64.lt_iff_toNat_lt.mp hlt; omega)] at h
  unfold DM.syncModify at h
  simp only [Option.getD_some] at h
  have hN := modifyDag_needs env cur ws buf svc c hs hc (by omega) ho hne
  have hM := modifyDag_spec env cur ws buf svc c hs hc (by omega) ho
  have hK := modifyDag_spine env defaultLinksPerBlock cur ws buf svc
  have hS := @modifyDag_stores env cur
  generalize hR : modifyDag env cur ws buf svc = R at hN hM hK h
  obtain ⟨r, n', rest, s1⟩ := R
  cases r with
  | error e' =>
    cases h
    exact .inl ((hN _ _ _ _ rfl).mono (fun x hx => .inl (.inl hx)))
  | ok k =>
    have hk : k ∈ s1.stored := modifyDag_stores hR
    dsimp only at h
    rcases Svc.get_cases env k s1 with ⟨s2, h1, h2⟩ | ⟨s2, h1, h2, h3⟩
    · rw [h1] at h
      dsimp only at h
      have hrest := hM.rest
      have hT := syncTail_spec env hsp { cur := k, ws := ws, cw := cw, buf := some rest, pfx := pfx, rawLeaves := rawLeaves, read := none, svc := s2 } rest buf.length rfl hM.sizes hM.cont
        (hg.imp (hM.grow _) (fun hle => by rw [hrest]; simp only [writeInto]; exact List.drop_of_length_le (by omega)))
      have hgr := syncTail_grew h
      have hbig : c.length < ws.toNat + buf.length := by
        by_contra hnb
        have : rest = [] := by rw [hrest]; simp only [writeInto]; exact List.drop_of_length_le (by omega)
        subst this
        unfold DM.syncTail at h
        simp at h
      rw [h] at hT
      rcases hT.2 with hT | hT
      · refine .inl (hT.mono (fun x hx => ?_))
        rcases hK k n' rest s1 rfl x hx with h | h
        · exact .inl (.inr ⟨hbig, h⟩)
        · exact .inr (hgr.subset (h2.mem h))
      · rw [hrest] at hT
        exact .inr ⟨hbig, hT⟩
    · rw [h1] at h
      cases h
      exact .inl (.inl ⟨rfl, _, k, .inr (h2.mem hk), h3⟩)

end Unixfs.Mod
