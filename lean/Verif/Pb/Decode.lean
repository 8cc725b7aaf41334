import Verif.Pb.RoundTrip

/-! # Every decoded message is well-formed -/

namespace Unixfs.Pb

/-- Partially decoded messages. Used in specifications and proofs only. -/
structure Data.PWF (m : Data) : Prop where
  data : ∀ d, m.data = some d → d.length < 2 ^ 64
  unrec : UnkFields m.unrec

theorem decBytes_payload {b d r : Bytes} (h : decBytes b = some (d, r)) : d.length < 2 ^ 64 := by
  unfold decBytes at h
  split at h
  · simp at h
  · rename_i n s hs
    have hn := decVarint_lt hs
    split at h
    · simp at h
    · simp only [Option.some.injEq, Prod.mk.injEq] at h
      rw [← h.1]; simp; omega

theorem Data.step_pwf {m m' : Data} {x : Nat} {b r : Bytes} (hx : x < 2 ^ 64) (hm : m.PWF)
    (h : m.step x b = .ok (m', r)) : m'.PWF := by
  have nv : ∀ (g : Nat → Data), (∀ v, (g v).PWF) →
      ((do let (v, r) ← needVarint b; return (g v, r)) : Except Err (Data × Bytes)) = .ok (m', r) →
      m'.PWF := by
    intro g hgw hg
    cases hq : needVarint b with
    | error e => rw [hq] at hg; simp [bind, Except.bind] at hg
    | ok q =>
      obtain ⟨v, s⟩ := q
      rw [hq] at hg
      simp only [bind, Except.bind, pure, Except.pure, Except.ok.injEq, Prod.mk.injEq] at hg
      rw [← hg.1]; exact hgw v
  unfold Data.step at h
  simp only at h
  split at h
  · simp at h
  rename_i ht
  split at h
  · exact nv (fun v => { m with typ := some (UInt32.ofNat v) }) (fun v => ⟨hm.data, hm.unrec⟩) h
  rename_i h1
  split at h
  · split at h
    · simp at h
    · rename_i hd
      simp only [Except.ok.injEq, Prod.mk.injEq] at h
      rw [← h.1]
      exact ⟨fun d' hd' => by simp only [Option.some.injEq] at hd'; rw [← hd']; exact decBytes_payload hd, hm.unrec⟩
  rename_i h2
  split at h
  · exact nv (fun v => { m with filesize := some (UInt64.ofNat v) }) (fun v => ⟨hm.data, hm.unrec⟩) h
  rename_i h3
  split at h
  · exact nv (fun v => { m with blocksizes := m.blocksizes ++ [UInt64.ofNat v] }) (fun v => ⟨hm.data, hm.unrec⟩) h
  rename_i h4
  split at h
  · split at h
    · simp at h
    · rename_i hd
      split at h
      · simp at h
      · simp only [Except.ok.injEq, Prod.mk.injEq] at h
        rw [← h.1]; exact ⟨hm.data, hm.unrec⟩
  rename_i h4'
  split at h
  · exact nv (fun v => { m with hashType := some (UInt64.ofNat v) }) (fun v => ⟨hm.data, hm.unrec⟩) h
  rename_i h5
  split at h
  · exact nv (fun v => { m with fanout := some (UInt64.ofNat v) }) (fun v => ⟨hm.data, hm.unrec⟩) h
  rename_i h6
  · cases hs : skipField (x % 8) b with
    | error e => rw [hs] at h; simp [bind, Except.bind] at h
    | ok s =>
      rw [hs] at h
      simp only [bind, Except.bind, pure, Except.pure, Except.ok.injEq, Prod.mk.injEq] at h
      obtain ⟨p, hp, hl⟩ := skipField_local hs
      rw [← h.1]
      refine ⟨hm.data, hm.unrec.append ?_⟩
      have hk : Data.known (x / 8) (x % 8) = false := by
        simp only [Data.known, Bool.or_eq_false_iff, Bool.and_eq_false_iff, beq_eq_false_iff_ne]
        omega
      have := UnkFields.cons x p [] hx ht hk hl .nil
      simpa [hp] using this

theorem Data.loop_pwf (f : Nat) (m m' : Data) (b : Bytes) (hm : m.PWF)
    (h : Data.loop f m b = .ok m') : m'.PWF := by
  induction f generalizing m b with
  | zero =>
    cases b with
    | nil => simp only [Data.loop, Except.ok.injEq] at h; exact h ▸ hm
    | cons x xs => simp [Data.loop] at h
  | succ f ih =>
    cases b with
    | nil => simp only [Data.loop, Except.ok.injEq] at h; exact h ▸ hm
    | cons x xs =>
      simp only [Data.loop] at h
      split at h
      · simp at h
      · rename_i v r hv
        split at h
        · simp at h
        · rename_i m1 r1 hs
          exact ih m1 r1 (Data.step_pwf (decVarint_lt hv) hm hs) h

/-- Whatever `proto.Unmarshal` accepts can be marshalled again without loss. -/
theorem Data.unmarshal_wf {b : Bytes} {m : Data} (h : Data.unmarshal b = .ok m) : m.WF := by
  unfold Data.unmarshal at h
  split at h
  · simp at h
  · rename_i m' hl
    split at h
    · simp at h
    · rename_i ht
      simp only [Except.ok.injEq] at h; subst h
      have hp := Data.loop_pwf _ _ _ _ ⟨by simp, .nil⟩ hl
      exact ⟨by rw [Option.isSome_iff_ne_none]; simpa using ht, hp.data, hp.unrec⟩

/-! ## `Metadata` round trip -/

theorem MetadataMsg.unmarshal_marshal (s : Bytes) (h : s.length < 2 ^ 64) :
    MetadataMsg.unmarshal (MetadataMsg.marshal { mimeType := some s }) = .ok { mimeType := some s } := by
  have hm : MetadataMsg.marshal { mimeType := some s } = encVarint 10 ++ (encVarint s.length ++ s ++ []) := by
    simp [MetadataMsg.marshal, encOpt, encBytesField]
  rw [hm]
  have e10 : encVarint 10 = [10] := by decide
  unfold MetadataMsg.unmarshal
  rw [e10]
  simp only [List.cons_append, List.nil_append, List.length_cons, MetadataMsg.loop]
  have hd : decVarint (10 :: (encVarint s.length ++ s ++ [])) = some (10, encVarint s.length ++ s ++ []) := by
    simp [decVarint, decVarintF]
  rw [hd]
  simp only [MetadataMsg.step, decBytes_enc s [] h]
  norm_num
  cases (encVarint s.length ++ s).length <;> simp [MetadataMsg.loop]

end Unixfs.Pb
