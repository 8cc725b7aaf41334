import Verif.Pb.Message

/-! # Lemmas about the codec: fuel independence, locality, round trips

The definitions in this file belong to proofs; they model no code.
-/

namespace Unixfs.Pb

theorem dropExact_local {n : Nat} {b r : Bytes} (h : dropExact n b = some r) :
    ∃ p, b = p ++ r ∧ ∀ r', dropExact n (p ++ r') = some r' := by
  unfold dropExact at h
  split at h
  · simp at h
  · rename_i hl
    simp only [Option.some.injEq] at h
    have hlen : (b.take n).length = n := by simp; omega
    refine ⟨b.take n, by rw [← h, List.take_append_drop], fun r' => ?_⟩
    unfold dropExact
    rw [if_neg (by simp; omega), List.drop_left' hlen]

theorem skipBytes_local {b r : Bytes} (h : skipBytes b = some r) :
    ∃ p, p ≠ [] ∧ b = p ++ r ∧ ∀ r', skipBytes (p ++ r') = some r' := by
  unfold skipBytes at h
  split at h
  · simp at h
  · rename_i m s hd
    obtain ⟨p, hp, hb, hl⟩ := decVarint_local hd
    obtain ⟨q, hq, hl'⟩ := dropExact_local h
    refine ⟨p ++ q, by simp [hp], by rw [hb, hq]; simp, fun r' => ?_⟩
    unfold skipBytes
    rw [List.append_assoc, hl]; exact hl' r'

/-- With enough fuel the amount of fuel is irrelevant, and skipping a group is local. -/
theorem skipGroup_local (f d : Nat) (b r : Bytes) (h : skipGroup f d b = some r) :
    ∃ p, p ≠ [] ∧ b = p ++ r ∧ ∀ r' f', p.length ≤ f' → skipGroup f' d (p ++ r') = some r' := by
  induction f generalizing d b with
  | zero => simp [skipGroup] at h
  | succ f ih =>
    -- generic continuation: first a varint key consuming `p`, then `q`, then the recursive call
    have key : ∀ (x : Nat) (s : Bytes), decVarint b = some (x, s) →
        ∃ p, p ≠ [] ∧ b = p ++ s ∧ ∀ r', decVarint (p ++ r') = some (x, r') :=
      fun x s hx => decVarint_local hx
    unfold skipGroup at h
    split at h
    · simp at h
    · rename_i x s hx
      obtain ⟨p, hp, hb, hl⟩ := key x s hx
      have hplen : 0 < p.length := List.length_pos_iff.mpr hp
      -- a payload step followed by recursion
      have comb : ∀ (q s' : Bytes), s = q ++ s' → skipGroup f d s' = some r →
          (∀ f' r', skipGroup (f' + 1) d (p ++ (q ++ r')) = skipGroup f' d r') →
          ∃ p, p ≠ [] ∧ b = p ++ r ∧ ∀ r' f', p.length ≤ f' → skipGroup f' d (p ++ r') = some r' := by
        intro q s' hs hrec hstep
        obtain ⟨t, ht, hst, hlt⟩ := ih d s' hrec
        refine ⟨p ++ (q ++ t), by simp [hp], by rw [hb, hs, hst]; simp, fun r' f' hf' => ?_⟩
        cases f' with
        | zero => simp only [List.length_append] at hf'; omega
        | succ f' =>
          have := hstep f' (t ++ r')
          simp only [List.append_assoc] at this ⊢
          rw [this]
          exact hlt r' f' (by simp only [List.length_append] at hf'; omega)
      split at h
      · rename_i h0
        split at h
        · simp at h
        · rename_i v s' hv
          obtain ⟨q, hq, hsq, hlq⟩ := decVarint_local hv
          refine comb q s' hsq h fun f' r' => ?_
          rw [skipGroup]; simp only [hl, h0, hlq, if_true]
      · rename_i h0
        split at h
        · rename_i h1
          split at h
          · simp at h
          · rename_i s' hv
            obtain ⟨q, hsq, hlq⟩ := dropExact_local hv
            refine comb q s' hsq h fun f' r' => ?_
            rw [skipGroup]; simp only [hl, hlq]; rw [if_neg h0, if_pos h1]
        · rename_i h1
          split at h
          · rename_i h2
            split at h
            · simp at h
            · rename_i s' hv
              obtain ⟨q, _, hsq, hlq⟩ := skipBytes_local hv
              refine comb q s' hsq h fun f' r' => ?_
              rw [skipGroup]; simp only [hl, hlq]; rw [if_neg h0, if_neg h1, if_pos h2]
          · rename_i h2
            split at h
            · rename_i h3
              obtain ⟨t, ht, hst, hlt⟩ := ih (d + 1) s h
              refine ⟨p ++ t, by simp [hp], by rw [hb, hst]; simp, fun r' f' hf' => ?_⟩
              cases f' with
              | zero => simp only [List.length_append] at hf'; omega
              | succ f' =>
                rw [List.append_assoc, skipGroup]; simp only [hl]
                rw [if_neg h0, if_neg h1, if_neg h2, if_pos h3]
                exact hlt r' f' (by simp only [List.length_append] at hf'; omega)
            · rename_i h3
              split at h
              · rename_i h4
                split at h
                · rename_i hd1
                  simp only [Option.some.injEq] at h
                  refine ⟨p, hp, by rw [hb, h], fun r' f' hf' => ?_⟩
                  cases f' with
                  | zero => omega
                  | succ f' =>
                    rw [skipGroup]; simp only [hl]
                    rw [if_neg h0, if_neg h1, if_neg h2, if_neg h3, if_pos h4, if_pos hd1]
                · rename_i hd1
                  obtain ⟨t, ht, hst, hlt⟩ := ih (d - 1) s h
                  refine ⟨p ++ t, by simp [hp], by rw [hb, hst]; simp, fun r' f' hf' => ?_⟩
                  cases f' with
                  | zero => simp only [List.length_append] at hf'; omega
                  | succ f' =>
                    rw [List.append_assoc, skipGroup]; simp only [hl]
                    rw [if_neg h0, if_neg h1, if_neg h2, if_neg h3, if_pos h4, if_neg hd1]
                    exact hlt r' f' (by simp only [List.length_append] at hf'; omega)
              · rename_i h4
                split at h
                · rename_i h5
                  split at h
                  · simp at h
                  · rename_i s' hv
                    obtain ⟨q, hsq, hlq⟩ := dropExact_local hv
                    refine comb q s' hsq h fun f' r' => ?_
                    rw [skipGroup]; simp only [hl, hlq]
                    rw [if_neg h0, if_neg h1, if_neg h2, if_neg h3, if_neg h4, if_pos h5]
                · simp at h

theorem skipField_local {w : Nat} {b r : Bytes} (h : skipField w b = .ok r) :
    ∃ p, b = p ++ r ∧ ∀ r', skipField w (p ++ r') = .ok r' := by
  unfold skipField at h
  split at h
  · rename_i h0
    split at h
    · simp at h
    · rename_i v s hv
      simp only [Except.ok.injEq] at h; subst h
      obtain ⟨q, _, hsq, hlq⟩ := decVarint_local hv
      exact ⟨q, hsq, fun r' => by unfold skipField; rw [if_pos h0, hlq]⟩
  · rename_i h0
    split at h
    · rename_i h1
      split at h
      · simp at h
      · rename_i s hv
        simp only [Except.ok.injEq] at h; subst h
        obtain ⟨q, hsq, hlq⟩ := dropExact_local hv
        exact ⟨q, hsq, fun r' => by unfold skipField; rw [if_neg h0, if_pos h1, hlq]⟩
    · rename_i h1
      split at h
      · rename_i h2
        split at h
        · simp at h
        · rename_i s hv
          simp only [Except.ok.injEq] at h; subst h
          obtain ⟨q, _, hsq, hlq⟩ := skipBytes_local hv
          exact ⟨q, hsq, fun r' => by unfold skipField; rw [if_neg h0, if_neg h1, if_pos h2, hlq]⟩
      · rename_i h2
        split at h
        · rename_i h3
          split at h
          · simp at h
          · rename_i s hv
            simp only [Except.ok.injEq] at h; subst h
            obtain ⟨q, _, hsq, hlq⟩ := skipGroup_local _ _ _ _ hv
            exact ⟨q, hsq, fun r' => by
              unfold skipField; rw [if_neg h0, if_neg h1, if_neg h2, if_pos h3, hlq _ _ (by simp)]⟩
        · rename_i h3
          split at h
          · rename_i h5
            split at h
            · simp at h
            · rename_i s hv
              simp only [Except.ok.injEq] at h; subst h
              obtain ⟨q, hsq, hlq⟩ := dropExact_local hv
              exact ⟨q, hsq, fun r' => by
                unfold skipField; rw [if_neg h0, if_neg h1, if_neg h2, if_neg h3, if_pos h5, hlq]⟩
          · simp at h

theorem decBytes_enc (d rest : Bytes) (h : d.length < 2 ^ 64) :
    decBytes (encVarint d.length ++ d ++ rest) = some (d, rest) := by
  unfold decBytes
  rw [List.append_assoc, decVarint_encVarint _ _ h]
  simp

theorem decBytes_length {b d r : Bytes} (h : decBytes b = some (d, r)) : r.length ≤ b.length := by
  unfold decBytes at h
  split at h
  · simp at h
  · rename_i n s hs
    have := decVarint_length hs
    split at h
    · simp at h
    · simp only [Option.some.injEq, Prod.mk.injEq] at h
      rw [← h.2]; simp; omega

theorem needVarint_length {b r : Bytes} {v : Nat} (h : needVarint b = .ok (v, r)) :
    r.length ≤ b.length := by
  unfold needVarint at h
  split at h
  · simp at h
  · rename_i p hp
    simp only [Except.ok.injEq] at h; subst h
    exact Nat.le_of_lt (decVarint_length hp)

theorem needVarint_enc (n : Nat) (rest : Bytes) (h : n < 2 ^ 64) :
    needVarint (encVarint n ++ rest) = .ok (n, rest) := by
  unfold needVarint; rw [decVarint_encVarint n rest h]

/-- A decoded field never grows the remaining input. -/
theorem Data.step_length {m m' : Data} {x : Nat} {b r : Bytes} (h : m.step x b = .ok (m', r)) :
    r.length ≤ b.length := by
  have nv : ∀ (g : Nat → Data),
      ((do let (v, r) ← needVarint b; return (g v, r)) : Except Err (Data × Bytes)) = .ok (m', r) →
      r.length ≤ b.length := by
    intro g hg
    cases hq : needVarint b with
    | error e => rw [hq] at hg; simp [bind, Except.bind] at hg
    | ok q =>
      obtain ⟨v, s⟩ := q
      rw [hq] at hg
      simp only [bind, Except.bind, pure, Except.pure, Except.ok.injEq, Prod.mk.injEq] at hg
      rw [← hg.2]; exact needVarint_length hq
  unfold Data.step at h
  simp only at h
  split at h
  · simp at h
  split at h
  · exact nv (fun v => { m with typ := some (UInt32.ofNat v) }) h
  split at h
  · split at h
    · simp at h
    · rename_i hd
      simp only [Except.ok.injEq, Prod.mk.injEq] at h
      rw [← h.2]; exact decBytes_length hd
  split at h
  · exact nv (fun v => { m with filesize := some (UInt64.ofNat v) }) h
  split at h
  · exact nv (fun v => { m with blocksizes := m.blocksizes ++ [UInt64.ofNat v] }) h
  split at h
  · split at h
    · simp at h
    · rename_i hd
      split at h
      · simp at h
      · simp only [Except.ok.injEq, Prod.mk.injEq] at h
        rw [← h.2]; exact decBytes_length hd
  split at h
  · exact nv (fun v => { m with hashType := some (UInt64.ofNat v) }) h
  split at h
  · exact nv (fun v => { m with fanout := some (UInt64.ofNat v) }) h
  · cases hs : skipField (x % 8) b with
    | error e => rw [hs] at h; simp [bind, Except.bind] at h
    | ok s =>
      rw [hs] at h
      simp only [bind, Except.bind, pure, Except.pure, Except.ok.injEq, Prod.mk.injEq] at h
      obtain ⟨p, hp, _⟩ := skipField_local hs
      rw [← h.2, hp]; simp

theorem Data.loop_fuel (f : Nat) (m : Data) (b : Bytes) (h : b.length ≤ f) :
    Data.loop f m b = Data.loop b.length m b := by
  induction f using Nat.strongRecOn generalizing m b with
  | _ f ih =>
    match f, b, h with
    | 0, [], _ => rfl
    | f + 1, [], _ => simp [Data.loop]
    | f + 1, x :: xs, h =>
      simp only [List.length_cons, Data.loop]
      split
      · rfl
      · rename_i v r hv
        have hr := decVarint_length hv
        simp only [List.length_cons] at hr h
        split
        · rfl
        · rename_i m' r' hs
          have hr' := Data.step_length hs
          rw [ih f (by omega) m' r' (by omega)]
          by_cases hx : xs.length = f
          · rw [hx]; rw [ih f (by omega) m' r' (by omega)]
          · rw [ih xs.length (by omega) m' r' (by omega)]

/-- The decode loop with exactly enough fuel. -/
def Data.run (m : Data) (b : Bytes) : Except Err Data := Data.loop b.length m b

theorem Data.run_nil (m : Data) : m.run [] = .ok m := by simp [Data.run, Data.loop]

theorem Data.run_field (m m' : Data) (x : Nat) (payload rest : Bytes) (hx : x < 2 ^ 64)
    (h : m.step x (payload ++ rest) = .ok (m', rest)) :
    m.run (encVarint x ++ payload ++ rest) = m'.run rest := by
  have hne : encVarint x ++ payload ++ rest ≠ [] := by simp [encVarint_ne_nil]
  obtain ⟨y, ys, hy⟩ := List.exists_cons_of_ne_nil hne
  unfold Data.run
  have hd : decVarint (encVarint x ++ payload ++ rest) = some (x, payload ++ rest) := by
    rw [List.append_assoc]; exact decVarint_encVarint x _ hx
  rw [hy] at hd ⊢
  simp only [List.length_cons, Data.loop, hd, h]
  have h1 := decVarint_length hd
  have h2 := Data.step_length h
  simp only [List.length_cons] at h1
  exact Data.loop_fuel _ _ _ (by omega)

/-! ### Well-formed unknown fields -/

/-- A sequence of fields that `pb.Data` does not know. -/
inductive UnkFields : Bytes → Prop
  | nil : UnkFields []
  | cons (x : Nat) (payload rest : Bytes) (hx : x < 2 ^ 64) (ht : x / 8 ≠ 0)
      (hk : Data.known (x / 8) (x % 8) = false)
      (hp : ∀ r', skipField (x % 8) (payload ++ r') = .ok r')
      (hr : UnkFields rest) : UnkFields (encVarint x ++ payload ++ rest)

theorem UnkFields.append {a b : Bytes} (ha : UnkFields a) (hb : UnkFields b) : UnkFields (a ++ b) := by
  induction ha with
  | nil => simpa using hb
  | cons x p r hx ht hk hp hr ih =>
    have := UnkFields.cons x p _ hx ht hk hp ih
    simpa [List.append_assoc] using this

theorem Data.step_unknown (m : Data) (x : Nat) (b r : Bytes) (ht : x / 8 ≠ 0)
    (hk : Data.known (x / 8) (x % 8) = false) (hs : skipField (x % 8) b = .ok r) :
    m.step x b = .ok ({ m with unrec := m.unrec ++ (encVarint x ++ b.take (b.length - r.length)) }, r) := by
  simp only [Data.known, Bool.or_eq_false_iff, Bool.and_eq_false_iff, beq_eq_false_iff_ne] at hk
  unfold Data.step
  simp only
  rw [if_neg ht, if_neg (by omega), if_neg (by omega), if_neg (by omega), if_neg (by omega),
    if_neg (by omega), if_neg (by omega), if_neg (by omega), hs]
  rfl

theorem Data.run_unk (m : Data) (u : Bytes) (hu : UnkFields u) :
    m.run u = .ok { m with unrec := m.unrec ++ u } := by
  induction hu generalizing m with
  | nil => simp [Data.run_nil]
  | cons x p r hx ht hk hp hr ih =>
    rw [Data.run_field m _ x p r hx (Data.step_unknown m x (p ++ r) r ht hk (hp r)), ih]
    simp

/-! ### Round trip of `pb.Data` -/

theorem signExt_lt (t : UInt32) : signExt t < 2 ^ 64 := by
  unfold signExt; have := t.toNat_lt; split <;> omega

theorem ofNat_signExt (t : UInt32) : UInt32.ofNat (signExt t) = t := by
  apply UInt32.toNat.inj
  rw [UInt32.toNat_ofNat']
  unfold signExt; have := t.toNat_lt; split <;> omega

theorem step_typ (m : Data) (t : UInt32) (rest : Bytes) :
    m.step (1 * 8) (encVarint (signExt t) ++ rest) = .ok ({ m with typ := some t }, rest) := by
  simp [Data.step, needVarint_enc _ _ (signExt_lt t), bind, Except.bind, pure, Except.pure, ofNat_signExt]

theorem step_data (m : Data) (d rest : Bytes) (h : d.length < 2 ^ 64) :
    m.step (2 * 8 + 2) ((encVarint d.length ++ d) ++ rest) = .ok ({ m with data := some d }, rest) := by
  simp only [Data.step, decBytes_enc d rest h]; simp

theorem step_filesize (m : Data) (v : UInt64) (rest : Bytes) :
    m.step (3 * 8) (encVarint v.toNat ++ rest) = .ok ({ m with filesize := some v }, rest) := by
  simp [Data.step, needVarint_enc _ _ v.toNat_lt, bind, Except.bind, pure, Except.pure]

theorem step_blocksize (m : Data) (v : UInt64) (rest : Bytes) :
    m.step (4 * 8) (encVarint v.toNat ++ rest) =
      .ok ({ m with blocksizes := m.blocksizes ++ [v] }, rest) := by
  simp [Data.step, needVarint_enc _ _ v.toNat_lt, bind, Except.bind, pure, Except.pure]

theorem step_hashType (m : Data) (v : UInt64) (rest : Bytes) :
    m.step (5 * 8) (encVarint v.toNat ++ rest) = .ok ({ m with hashType := some v }, rest) := by
  simp [Data.step, needVarint_enc _ _ v.toNat_lt, bind, Except.bind, pure, Except.pure]

theorem step_fanout (m : Data) (v : UInt64) (rest : Bytes) :
    m.step (6 * 8) (encVarint v.toNat ++ rest) = .ok ({ m with fanout := some v }, rest) := by
  simp [Data.step, needVarint_enc _ _ v.toNat_lt, bind, Except.bind, pure, Except.pure]

theorem run_blocksizes (m : Data) (l : List UInt64) (rest : Bytes) :
    m.run (encBlocksizes l ++ rest) = ({ m with blocksizes := m.blocksizes ++ l } : Data).run rest := by
  induction l generalizing m with
  | nil => simp [encBlocksizes]
  | cons s r ih =>
    simp only [encBlocksizes, encVarintField]
    rw [List.append_assoc, Data.run_field m _ _ _ _ (by norm_num) (step_blocksize m s _), ih]
    simp

theorem run_optVarint (m : Data) (tag : Nat) (ht : tag * 8 < 2 ^ 64) (o : Option UInt64) (g : Option UInt64 → Data)
    (h0 : g none = m)
    (hstep : ∀ v rest, m.step (tag * 8) (encVarint (UInt64.toNat v) ++ rest) = .ok (g (some v), rest)) (rest : Bytes) :
    m.run (encOpt (fun v => encVarintField tag (UInt64.toNat v)) o ++ rest) = (g o).run rest := by
  cases o with
  | none => simp [encOpt, h0]
  | some v =>
    simp only [encOpt, encVarintField]
    rw [Data.run_field m _ _ _ _ ht (hstep v rest)]

/-- Messages that can be produced by the API: `Type` is set, the payload has a Go length, and the
unknown fields are a sequence of well-formed unknown fields. -/
structure Data.WF (m : Data) : Prop where
  typ : m.typ.isSome
  data : ∀ d, m.data = some d → d.length < 2 ^ 64
  unrec : UnkFields m.unrec

/-- `proto.Unmarshal (proto.Marshal m) = m`. -/
theorem Data.unmarshal_marshal (m : Data) (h : m.WF) :
    ∃ b, m.marshal = .ok b ∧ Data.unmarshal b = .ok m := by
  obtain ⟨typ, data, fs, bs, ht, fo, u⟩ := m
  obtain ⟨htyp, hdata, hu⟩ := h
  obtain ⟨t, rfl⟩ := Option.isSome_iff_exists.mp htyp
  simp only at hdata hu
  refine ⟨_, rfl, ?_⟩
  simp only
  have hrun : ∀ b, Data.unmarshal b = match Data.run {} b with
      | .error e => .error e
      | .ok m => if m.typ.isNone then .error .pbRequiredNotSet else .ok m := fun b => rfl
  rw [hrun]
  have : Data.run {} (encVarintField 1 (signExt t)
      ++ (encOpt (encBytesField 2) data
      ++ (encOpt (fun v => encVarintField 3 (UInt64.toNat v)) fs
      ++ (encBlocksizes bs
      ++ (encOpt (fun v => encVarintField 5 (UInt64.toNat v)) ht
      ++ (encOpt (fun v => encVarintField 6 (UInt64.toNat v)) fo
      ++ u)))))) = .ok ⟨some t, data, fs, bs, ht, fo, u⟩ := by
    rw [encVarintField, Data.run_field _ _ _ _ _ (by norm_num) (step_typ _ t _)]
    have e2 : ∀ rest, Data.run { typ := some t } (encOpt (encBytesField 2) data ++ rest)
        = Data.run { typ := some t, data := data } rest := by
      intro rest
      cases data with
      | none => simp [encOpt]
      | some d =>
        simp only [encOpt, encBytesField]
        rw [Data.run_field _ _ _ _ _ (by norm_num) (step_data _ d _ (hdata d rfl))]
    rw [e2]
    rw [run_optVarint { typ := some t, data := data } 3 (by norm_num) fs
      (fun o => { typ := some t, data := data, filesize := o }) rfl (fun v r => step_filesize _ v r)]
    rw [run_blocksizes]
    simp only [List.nil_append]
    rw [run_optVarint _ 5 (by norm_num) ht
      (fun o => { typ := some t, data := data, filesize := fs, blocksizes := bs, hashType := o }) rfl
      (fun v r => step_hashType _ v r)]
    rw [run_optVarint _ 6 (by norm_num) fo
      (fun o => { typ := some t, data := data, filesize := fs, blocksizes := bs, hashType := ht, fanout := o }) rfl
      (fun v r => step_fanout _ v r)]
    rw [Data.run_unk _ u hu]
    simp
  rw [this]
  simp

end Unixfs.Pb
