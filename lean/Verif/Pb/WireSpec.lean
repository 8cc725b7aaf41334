import Verif.Pb.Decode
import Verif.Spec.Wire

/-! # The decoder implements the wire specification (helper lemmas for C03)

The definitions in this file belong to proofs; they model no code.
-/

namespace Unixfs.Pb

open Spec

/-- Effect of one field on a message. -/
def apply1 (m : Data) (f : Field) : Data where
  typ := if f.tag = 1 ∧ f.wire = 0 then some (UInt32.ofNat (varintOf f.payload)) else m.typ
  data := if f.tag = 2 ∧ f.wire = 2 then some (bytesOf f.payload) else m.data
  filesize := if f.tag = 3 ∧ f.wire = 0 then some (UInt64.ofNat (varintOf f.payload)) else m.filesize
  blocksizes := m.blocksizes ++ sizesOf f
  hashType := if f.tag = 5 ∧ f.wire = 0 then some (UInt64.ofNat (varintOf f.payload)) else m.hashType
  fanout := if f.tag = 6 ∧ f.wire = 0 then some (UInt64.ofNat (varintOf f.payload)) else m.fanout
  unrec := m.unrec ++ keepUnknown f

theorem lastVarint_concat (t : Nat) (fs : List Field) (f : Field) :
    lastVarint t (fs ++ [f]) = if f.tag = t ∧ f.wire = 0 then some (varintOf f.payload) else lastVarint t fs := by
  unfold lastVarint
  rw [List.filter_append]
  split
  · rename_i h; simp [h.1, h.2]
  · rename_i h
    have : ([f].filter fun f => f.tag == t && f.wire == 0) = [] := by
      simp only [List.filter_cons, List.filter_nil]
      rw [if_neg]; simpa using h
    rw [this]; simp

theorem lastBytes_concat (t : Nat) (fs : List Field) (f : Field) :
    lastBytes t (fs ++ [f]) = if f.tag = t ∧ f.wire = 2 then some (bytesOf f.payload) else lastBytes t fs := by
  unfold lastBytes
  rw [List.filter_append]
  split
  · rename_i h; simp [h.1, h.2]
  · rename_i h
    have : ([f].filter fun f => f.tag == t && f.wire == 2) = [] := by
      simp only [List.filter_cons, List.filter_nil]
      rw [if_neg]; simpa using h
    rw [this]; simp

theorem message_concat (fs : List Field) (f : Field) : message (fs ++ [f]) = apply1 (message fs) f := by
  simp only [message, apply1, lastVarint_concat, lastBytes_concat, List.flatMap_append]
  congr 1 <;> first | (split <;> rfl) | simp

theorem message_foldl (fs gs : List Field) : gs.foldl apply1 (message fs) = message (fs ++ gs) := by
  induction gs generalizing fs with
  | nil => simp
  | cons g gs ih => simp only [List.foldl_cons, ← message_concat, ih]; simp

theorem message_nil : message [] = {} := rfl

/-- Side conditions on a field under which the decoder accepts it. -/
structure FieldOK (f : Field) : Prop where
  tag : f.tag ≠ 0
  packed : f.tag = 4 → f.wire = 2 →
    (decPacked (bytesOf f.payload).length (bytesOf f.payload)).isSome

theorem decBytes_local {b d r : Bytes} (h : decBytes b = some (d, r)) :
    ∃ p, b = p ++ r ∧ (∀ r', decBytes (p ++ r') = some (d, r')) := by
  unfold decBytes at h
  split at h
  · simp at h
  · rename_i n s hs
    split at h
    · simp at h
    · rename_i hl
      simp only [Option.some.injEq, Prod.mk.injEq] at h
      obtain ⟨p, _, hb, hloc⟩ := decVarint_local hs
      have hlen : (s.take n).length = n := by simp; omega
      refine ⟨p ++ s.take n, ?_, fun r' => ?_⟩
      · rw [hb, ← h.2, List.append_assoc, List.take_append_drop]
      · unfold decBytes
        rw [List.append_assoc, hloc]
        simp only
        rw [if_neg (by simp; omega), List.take_left' hlen, List.drop_left' hlen, h.1]

theorem skip2_of_decBytes {b d r : Bytes} (h : decBytes b = some (d, r)) : skipField 2 b = .ok r := by
  unfold decBytes at h
  unfold skipField skipBytes dropExact
  split at h
  · simp at h
  · rename_i n s hs
    simp only
    split at h
    · simp at h
    · rename_i hl
      simp only [Option.some.injEq, Prod.mk.injEq] at h
      simp [hl, h.2]

theorem decBytes_of_skip2 {b r : Bytes} (h : skipField 2 b = .ok r) : ∃ d, decBytes b = some (d, r) := by
  unfold skipField skipBytes dropExact at h
  simp only at h
  unfold decBytes
  cases hs : decVarint b with
  | none => rw [hs] at h; simp at h
  | some q =>
    obtain ⟨n, s⟩ := q
    rw [hs] at h
    simp only at h
    by_cases hl : s.length < n
    · simp [hl] at h
    · simp only [hl] at h ⊢
      simp at h
      exact ⟨s.take n, by simp [h]⟩

theorem needVarint_of_skip0 {b r : Bytes} (h : skipField 0 b = .ok r) : ∃ v, decVarint b = some (v, r) := by
  unfold skipField at h
  cases hs : decVarint b with
  | none => rw [hs] at h; simp at h
  | some q =>
    rw [hs] at h
    simp at h
    exact ⟨q.1, by rw [← h]⟩

/-- One decoder step is one field. -/
theorem step_field {m m' : Data} {x : Nat} {b r : Bytes} (h : m.step x b = .ok (m', r)) :
    ∃ p, b = p ++ r ∧ (∀ r', skipField (x % 8) (p ++ r') = .ok r') ∧
      FieldOK ⟨x / 8, x % 8, p⟩ ∧ m' = apply1 m ⟨x / 8, x % 8, p⟩ := by
  have skip0 : ∀ v s, needVarint b = .ok (v, s) → ∃ p, b = p ++ s ∧ (∀ r', skipField 0 (p ++ r') = .ok r') ∧
      varintOf p = v := by
    intro v s hv
    unfold needVarint at hv
    split at hv
    · simp at hv
    · rename_i q hq
      simp only [Except.ok.injEq] at hv; subst hv
      obtain ⟨p, _, hb, hl⟩ := decVarint_local hq
      refine ⟨p, hb, fun r' => by unfold skipField; simp [hl], ?_⟩
      have := hl []
      unfold varintOf; rw [List.append_nil] at this; rw [this]
  have nv : ∀ (t : Nat) (g : Nat → Data), x / 8 = t → x % 8 = 0 → t ≠ 0 → t ≠ 4 ∨ True →
      (∀ p, g (varintOf p) = apply1 m ⟨t, 0, p⟩) →
      ((do let (v, r) ← needVarint b; return (g v, r)) : Except Err (Data × Bytes)) = .ok (m', r) →
      ∃ p, b = p ++ r ∧ (∀ r', skipField (x % 8) (p ++ r') = .ok r') ∧
      FieldOK ⟨x / 8, x % 8, p⟩ ∧ m' = apply1 m ⟨x / 8, x % 8, p⟩ := by
    intro t g h1 h2 ht0 _ hga hg
    cases hq : needVarint b with
    | error e => rw [hq] at hg; simp [bind, Except.bind] at hg
    | ok q =>
      obtain ⟨v, s⟩ := q
      rw [hq] at hg
      simp only [bind, Except.bind, pure, Except.pure, Except.ok.injEq, Prod.mk.injEq] at hg
      obtain ⟨p, hb, hl, hv⟩ := skip0 v s hq
      refine ⟨p, by rw [← hg.2]; exact hb, by rw [h2]; exact hl, ⟨by simpa [h1] using ht0, by simp [h2]⟩, ?_⟩
      rw [← hg.1, h1, h2, ← hv]; exact hga p
  unfold Data.step at h
  simp only at h
  split at h
  · simp at h
  rename_i ht
  split at h
  · rename_i hc
    exact nv 1 (fun v => { m with typ := some (UInt32.ofNat v) }) hc.1 hc.2 (by simp) (by simp)
      (fun p => by simp [apply1, sizesOf, keepUnknown, inSchema]) h
  rename_i h1
  split at h
  · rename_i hc
    split at h
    · simp at h
    · rename_i d s hd
      simp only [Except.ok.injEq, Prod.mk.injEq] at h
      obtain ⟨p, hb, hl⟩ := decBytes_local hd
      refine ⟨p, by rw [← h.2]; exact hb, fun r' => by rw [hc.2]; exact skip2_of_decBytes (hl r'),
        ⟨ht, by simp [hc.1]⟩, ?_⟩
      have hbo : bytesOf p = d := by have := hl []; unfold bytesOf; rw [List.append_nil] at this; rw [this]
      rw [← h.1]; simp [apply1, sizesOf, keepUnknown, inSchema, hc.1, hc.2, hbo]
  rename_i h2
  split at h
  · rename_i hc
    exact nv 3 (fun v => { m with filesize := some (UInt64.ofNat v) }) hc.1 hc.2 (by simp) (by simp)
      (fun p => by simp [apply1, sizesOf, keepUnknown, inSchema]) h
  rename_i h3
  split at h
  · rename_i hc
    exact nv 4 (fun v => { m with blocksizes := m.blocksizes ++ [UInt64.ofNat v] }) hc.1 hc.2 (by simp) (by simp)
      (fun p => by simp [apply1, sizesOf, keepUnknown, inSchema]) h
  rename_i h4
  split at h
  · rename_i hc
    split at h
    · simp at h
    · rename_i d s hd
      split at h
      · simp at h
      · rename_i l hp
        simp only [Except.ok.injEq, Prod.mk.injEq] at h
        obtain ⟨p, hb, hl⟩ := decBytes_local hd
        have hbo : bytesOf p = d := by have := hl []; unfold bytesOf; rw [List.append_nil] at this; rw [this]
        refine ⟨p, by rw [← h.2]; exact hb, fun r' => by rw [hc.2]; exact skip2_of_decBytes (hl r'),
          ⟨ht, by intros; simp [hbo, hp]⟩, ?_⟩
        rw [← h.1]; simp [apply1, sizesOf, keepUnknown, inSchema, hc.1, hc.2, hbo, hp]
  rename_i h4'
  split at h
  · rename_i hc
    exact nv 5 (fun v => { m with hashType := some (UInt64.ofNat v) }) hc.1 hc.2 (by simp) (by simp)
      (fun p => by simp [apply1, sizesOf, keepUnknown, inSchema]) h
  rename_i h5
  split at h
  · rename_i hc
    exact nv 6 (fun v => { m with fanout := some (UInt64.ofNat v) }) hc.1 hc.2 (by simp) (by simp)
      (fun p => by simp [apply1, sizesOf, keepUnknown, inSchema]) h
  rename_i h6
  cases hs : skipField (x % 8) b with
  | error e => rw [hs] at h; simp [bind, Except.bind] at h
  | ok s =>
    rw [hs] at h
    simp only [bind, Except.bind, pure, Except.pure, Except.ok.injEq, Prod.mk.injEq] at h
    obtain ⟨p, hp, hl⟩ := skipField_local hs
    refine ⟨p, by rw [← h.2]; exact hp, hl, ⟨ht, by intro a c; exact absurd ⟨a, c⟩ h4'⟩, ?_⟩
    rw [← h.1, hp]
    have hx : 8 * (x / 8) + x % 8 = x := by omega
    have hin : inSchema ⟨x / 8, x % 8, p⟩ = false := by
      simp only [inSchema, List.mem_cons, Prod.mk.injEq, List.not_mem_nil, or_false, decide_eq_false_iff_not]
      omega
    simp [apply1, sizesOf, keepUnknown, hin, hx, h1, h2, h3, h4, h4', h5, h6]

/-- Conversely a well-formed field is accepted. -/
theorem step_of_field {m : Data} {f : Field} {r : Bytes} (hw : f.wire < 8) (hok : FieldOK f)
    (hp : ∀ r', skipField f.wire (f.payload ++ r') = .ok r') :
    m.step (8 * f.tag + f.wire) (f.payload ++ r) = .ok (apply1 m f, r) := by
  have hd : (8 * f.tag + f.wire) / 8 = f.tag := by omega
  have hm : (8 * f.tag + f.wire) % 8 = f.wire := by omega
  -- it is enough that the step succeeds with remainder `r`
  suffices hsuf : ∃ m', m.step (8 * f.tag + f.wire) (f.payload ++ r) = .ok (m', r) by
    obtain ⟨m', h⟩ := hsuf
    obtain ⟨p, hb, _, _, hm'⟩ := step_field h
    have : p = f.payload := (List.append_cancel_right hb).symm
    rw [h, hm', hd, hm, this]
  have v0 : f.wire = 0 → ∃ v, needVarint (f.payload ++ r) = .ok (v, r) := by
    intro h0
    obtain ⟨v, hv⟩ := needVarint_of_skip0 (h0 ▸ hp r)
    exact ⟨v, by unfold needVarint; rw [hv]⟩
  have v2 : f.wire = 2 → ∃ d, decBytes (f.payload ++ r) = some (d, r) := fun h2 =>
    decBytes_of_skip2 (h2 ▸ hp r)
  unfold Data.step
  simp only [hd, hm]
  rw [if_neg hok.tag]
  split
  · rename_i hc; obtain ⟨v, hv⟩ := v0 hc.2; rw [hv]; exact ⟨_, rfl⟩
  split
  · rename_i hc; obtain ⟨v, hv⟩ := v2 hc.2; rw [hv]; exact ⟨_, rfl⟩
  split
  · rename_i hc; obtain ⟨v, hv⟩ := v0 hc.2; rw [hv]; exact ⟨_, rfl⟩
  split
  · rename_i hc; obtain ⟨v, hv⟩ := v0 hc.2; rw [hv]; exact ⟨_, rfl⟩
  split
  · rename_i hc
    obtain ⟨d, hv⟩ := v2 hc.2
    obtain ⟨p, hb, hl⟩ := decBytes_local hv
    have hpe : p = f.payload := (List.append_cancel_right hb).symm
    have hbo : bytesOf f.payload = d := by
      have := hl []; unfold bytesOf; rw [List.append_nil, hpe] at this; rw [this]
    have := hok.packed hc.1 hc.2
    rw [hbo] at this
    obtain ⟨l, hl'⟩ := Option.isSome_iff_exists.mp this
    rw [hv]; simp only [hl']; exact ⟨_, rfl⟩
  split
  · rename_i hc; obtain ⟨v, hv⟩ := v0 hc.2; rw [hv]; exact ⟨_, rfl⟩
  split
  · rename_i hc; obtain ⟨v, hv⟩ := v0 hc.2; rw [hv]; exact ⟨_, rfl⟩
  · rw [hp r]; exact ⟨_, rfl⟩

theorem loop_wire (fuel : Nat) (m m' : Data) (b : Bytes) (h : Data.loop fuel m b = .ok m') :
    ∃ fs, Wire b fs ∧ (∀ f ∈ fs, FieldOK f) ∧ m' = fs.foldl apply1 m := by
  induction fuel generalizing m b with
  | zero =>
    cases b with
    | nil => simp only [Data.loop, Except.ok.injEq] at h; exact ⟨[], .nil, by simp, h.symm⟩
    | cons x xs => simp [Data.loop] at h
  | succ f ih =>
    cases b with
    | nil => simp only [Data.loop, Except.ok.injEq] at h; exact ⟨[], .nil, by simp, h.symm⟩
    | cons y ys =>
      simp only [Data.loop] at h
      split at h
      · simp at h
      · rename_i x r hx
        split at h
        · simp at h
        · rename_i m1 r1 hs
          obtain ⟨k, _, hb, hkl⟩ := decVarint_local hx
          obtain ⟨p, hr, hpl, hok, hm1⟩ := step_field hs
          obtain ⟨fs, hwire, hall, hm'⟩ := ih m1 r1 h
          have hx8 : 8 * (x / 8) + x % 8 = x := by omega
          refine ⟨⟨x / 8, x % 8, p⟩ :: fs, ?_, ?_, ?_⟩
          · rw [hb, hr, ← List.append_assoc]
            exact Wire.cons (f := ⟨x / 8, x % 8, p⟩) (by simpa [hx8] using hkl) (Nat.mod_lt _ (by omega)) hpl hwire
          · intro f' hf'
            rcases List.mem_cons.mp hf' with h' | h'
            · exact h' ▸ hok
            · exact hall f' h'
          · simp [hm', hm1]

theorem run_of_wire {b : Bytes} {fs : List Field} (hw : Wire b fs) (hok : ∀ f ∈ fs, FieldOK f) (m : Data) :
    Data.run m b = .ok (fs.foldl apply1 m) := by
  induction hw generalizing m with
  | nil => simp [Data.run_nil]
  | @cons key f rest fs hkey hw8 hpay hrest ih =>
    have hstep := step_of_field (m := m) (r := rest) hw8 (hok f (by simp)) hpay
    have hd := hkey (f.payload ++ rest)
    rw [← List.append_assoc] at hd
    have hlen := decVarint_length hd
    have hne : key ++ f.payload ++ rest ≠ [] := by
      intro h0; rw [h0] at hlen; simp at hlen
    obtain ⟨y, ys, hy⟩ := List.exists_cons_of_ne_nil hne
    have := ih (fun f' hf' => hok f' (List.mem_cons_of_mem _ hf')) (apply1 m f)
    unfold Data.run at this ⊢
    rw [hy] at hd ⊢
    simp only [List.length_cons, Data.loop, hd, hstep]
    have h1 := decVarint_length hd
    have h2 := Data.step_length hstep
    simp only [List.length_cons] at h1
    rw [Data.loop_fuel _ _ _ (by omega), this]
    simp

end Unixfs.Pb
