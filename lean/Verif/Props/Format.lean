import Verif.Pb.WireSpec
import Verif.Spec.FSNode

/-! # Properties C01–C05: the unixfs payload format -/

namespace Unixfs

open Pb Spec

/-! ## C01 -/

theorem apiNode_wf {n : FSNode} (h : ApiNode n) : n.format.WF := by
  induction h with
  | new t => exact ⟨rfl, by simp [FSNode.new, FSNode.updateFilesize], .nil⟩
  | decoded h =>
    unfold FSNode.fromBytes at h
    split at h
    · simp at h
    · rename_i d hd
      simp only [Except.ok.injEq] at h; subst h
      exact Data.unmarshal_wf hd
  | op o hn hlen h ih =>
    cases o with
    | setData d =>
      simp only [FSNode.apply, Except.ok.injEq] at h; subst h
      refine ⟨ih.typ, fun d' hd' => ?_, ih.unrec⟩
      simp only [FSNode.setData] at hd'
      exact Nat.lt_trans (hlen d' (by rw [hd'])) (by norm_num)
    | addBlockSize s =>
      simp only [FSNode.apply, Except.ok.injEq] at h; subst h
      exact ⟨ih.typ, ih.data, ih.unrec⟩
    | removeBlockSize i =>
      simp only [FSNode.apply, FSNode.removeBlockSize] at h
      split at h
      · simp at h
      · simp only [Except.ok.injEq] at h; subst h
        exact ⟨ih.typ, ih.data, ih.unrec⟩
    | removeAllBlockSizes =>
      simp only [FSNode.apply, Except.ok.injEq] at h; subst h
      exact ⟨ih.typ, ih.data, ih.unrec⟩

/-- **C01.** Every FSNode a client can hold serialises, and parsing the bytes gives back the very same
node: type, data, file size, block sizes, hash type, fanout (and unknown fields). -/
theorem C01_fsnode_roundtrip (n : FSNode) (h : ApiNode n) :
    ∃ b, n.getBytes = .ok b ∧ FSNode.fromBytes b = .ok n := by
  obtain ⟨b, hb, hu⟩ := Data.unmarshal_marshal n.format (apiNode_wf h)
  exact ⟨b, hb, by simp [FSNode.fromBytes, hu]⟩

/-- A file node with data and a 10-byte varint block size is a client-visible node. -/
example : ApiNode ((FSNode.new TFile |>.setData (some [1, 2, 3])).addBlockSize (UInt64.ofNat (2 ^ 64 - 1))) :=
  .op (.addBlockSize (UInt64.ofNat (2 ^ 64 - 1))) (.op (.setData (some [1, 2, 3])) (.new TFile) (by simp) rfl) (by simp) rfl

/-! ## C02 -/

theorem mustMarshal_spec (d : Pb.Data) (h : d.WF) : Data.unmarshal (mustMarshal d) = .ok d := by
  obtain ⟨b, hb, hu⟩ := Data.unmarshal_marshal d h
  simp [mustMarshal, hb, hu]

/-- The constructors that panic on a marshalling error never do. -/
theorem mustMarshal_ok (d : Pb.Data) (h : d.typ.isSome) : d.marshal = .ok (mustMarshal d) := by
  unfold mustMarshal Data.marshal
  obtain ⟨t, ht⟩ := Option.isSome_iff_exists.mp h
  simp [ht]

/-- **C02.** The payload constructors are inverted by `UnwrapData` and measured by `DataSize`.
`x.getD []` reads a nil slice as empty. -/
theorem C02_constructors (d : Option Bytes) (path : Bytes) (total fanout ht : UInt64)
    (hd : (d.getD []).length < 2 ^ 63) (hp : path.length < 2 ^ 63) :
    unwrapData (filePBData d total) = .ok (d.getD []) ∧
    dataSize (filePBData d total) = .ok total ∧
    unwrapData (wrapData d) = .ok (d.getD []) ∧
    dataSize (wrapData d) = .ok (UInt64.ofNat (d.getD []).length) ∧
    (∃ b, symlinkData path = .ok b ∧ unwrapData b = .ok path ∧ dataSize b = .ok (UInt64.ofNat path.length)) ∧
    (∃ b, hamtShardData d fanout ht = .ok b ∧ ∃ n, FSNode.fromBytes b = .ok n ∧ n.data = d.getD [] ∧
      n.fanout = fanout ∧ n.hashType = ht ∧ n.type = THAMTShard) ∧
    dataSize folderPBData = .error .dirDataSize ∧
    unwrapData folderPBData = .ok [] := by
  have hdl : ∀ x, d = some x → x.length < 2 ^ 64 := by
    intro x hx; subst hx; simp at hd; omega
  have w1 : Data.WF { typ := some TFile, data := d, filesize := some total } := ⟨rfl, hdl, .nil⟩
  have w2 : Data.WF { typ := some TRaw, data := d, filesize := some (UInt64.ofNat (d.getD []).length) } := ⟨rfl, hdl, .nil⟩
  have w3 : Data.WF { typ := some TSymlink, data := some path } := ⟨rfl, by simp; omega, .nil⟩
  have w4 : Data.WF { typ := some THAMTShard, hashType := some ht, data := d, fanout := some fanout } := ⟨rfl, hdl, .nil⟩
  have w5 : Data.WF { typ := some TDirectory } := ⟨rfl, by simp, .nil⟩
  refine ⟨?_, ?_, ?_, ?_, ?_, ?_, ?_, ?_⟩
  · simp [unwrapData, filePBData, mustMarshal_spec _ w1, Data.getData]
  · simp only [dataSize, filePBData, mustMarshal_spec _ w1]; simp [pbSize, Data.getType, Data.getFilesize, TFile, TDirectory, THAMTShard]
  · simp [unwrapData, wrapData, mustMarshal_spec _ w2, Data.getData]
  · simp only [dataSize, wrapData, mustMarshal_spec _ w2]; simp [pbSize, Data.getType, Data.getFilesize, TFile, TDirectory, THAMTShard, TRaw]
  · obtain ⟨b, hb, hu⟩ := Data.unmarshal_marshal _ w3
    refine ⟨b, hb, by simp [unwrapData, hu, Data.getData], ?_⟩
    simp [dataSize, hu, pbSize, Data.getType, Data.getData, TFile, TDirectory, THAMTShard, TRaw, TSymlink]
  · obtain ⟨b, hb, hu⟩ := Data.unmarshal_marshal _ w4
    exact ⟨b, hb, _, by simp [FSNode.fromBytes, hu]; rfl, rfl, rfl, rfl, rfl⟩
  · simp only [dataSize, folderPBData, mustMarshal_spec _ w5]; simp [pbSize, Data.getType, TDirectory]
  · simp [unwrapData, folderPBData, mustMarshal_spec _ w5, Data.getData]

example : ((some [1, 2, 3] : Option Bytes).getD []).length < 2 ^ 63 := by decide

/-! ## C03 -/

/-- **C03 (acceptance).** `FSNodeFromBytes` accepts exactly the byte strings that are a sequence of
wire fields with no field 0, well-formed packed sizes and at least one `Type` field; the result is
the message denoted by those fields. -/
theorem C03_decode_iff (b : Bytes) (n : FSNode) :
    FSNode.fromBytes b = .ok n ↔
      ∃ fs, Wire b fs ∧ (∀ f ∈ fs, f.tag ≠ 0) ∧
        (∀ f ∈ fs, f.tag = 4 → f.wire = 2 → (decPacked (bytesOf f.payload).length (bytesOf f.payload)).isSome) ∧
        (∃ f ∈ fs, f.tag = 1 ∧ f.wire = 0) ∧ n.format = message fs := by
  have typ_iff : ∀ fs, (message fs).typ.isSome ↔ ∃ f ∈ fs, f.tag = 1 ∧ f.wire = 0 := by
    intro fs
    simp [message, lastVarint, Option.isSome_map]
  constructor
  · intro h
    unfold FSNode.fromBytes at h
    split at h
    · simp at h
    · rename_i d hd
      simp only [Except.ok.injEq] at h; subst h
      unfold Data.unmarshal at hd
      split at hd
      · simp at hd
      · rename_i m hl
        split at hd
        · simp at hd
        · rename_i ht
          simp only [Except.ok.injEq] at hd; subst hd
          obtain ⟨fs, hw, hok, hm⟩ := loop_wire _ _ _ _ hl
          have hm' : m = message fs := by rw [hm, ← message_nil, message_foldl]; simp
          refine ⟨fs, hw, fun f hf => (hok f hf).tag, fun f hf => (hok f hf).packed, ?_, hm'⟩
          rw [← typ_iff, ← hm', Option.isSome_iff_ne_none]; simpa using ht
  · rintro ⟨fs, hw, htag, hpk, htyp, hn⟩
    have := run_of_wire hw (fun f hf => ⟨htag f hf, hpk f hf⟩) {}
    rw [← message_nil, message_foldl, List.nil_append] at this
    unfold Data.run at this
    have hs := (typ_iff fs).mpr htyp
    obtain ⟨m⟩ := n
    simp only at hn; subst hn
    have hnone : (message fs).typ.isNone = false := by
      rw [Option.isSome_iff_ne_none] at hs
      cases h : (message fs).typ <;> simp_all
    rw [message_nil] at this
    simp [FSNode.fromBytes, Data.unmarshal, this, hnone]

/-- **C03 (losslessness).** Re-encoding any accepted message and decoding it again returns the same
message, including fields this version does not know. -/
theorem C03_reencode (b : Bytes) (n : FSNode) (h : FSNode.fromBytes b = .ok n) :
    ∃ b', n.getBytes = .ok b' ∧ FSNode.fromBytes b' = .ok n :=
  C01_fsnode_roundtrip n (.decoded h)

/-- **C03 (strictness).** A message without `Type` is refused. -/
theorem C03_type_required (b : Bytes) (fs : List Field) (hw : Wire b fs)
    (hno : ∀ f ∈ fs, ¬(f.tag = 1 ∧ f.wire = 0)) : ∃ e, FSNode.fromBytes b = .error e := by
  cases h : FSNode.fromBytes b with
  | error e => exact ⟨e, rfl⟩
  | ok n =>
    exfalso
    obtain ⟨d⟩ := n
    unfold FSNode.fromBytes Data.unmarshal at h
    cases hl : Data.loop b.length {} b with
    | error e => rw [hl] at h; simp at h
    | ok m =>
      rw [hl] at h
      -- the parse of `b` is unique
      have uniq : ∀ {b : Bytes} {fs gs : List Field}, Wire b fs → Wire b gs → fs = gs := by
        intro b fs gs h1
        induction h1 generalizing gs with
        | nil =>
          intro h2
          generalize hb : ([] : Bytes) = b' at h2
          cases h2 with
          | nil => rfl
          | @cons key f rest fs hkey hw8 hpay hrest =>
            have : key = [] := by simp at hb; exact hb.1
            have h0 := hkey []
            rw [this] at h0
            simp [decVarint, decVarintF] at h0
        | @cons key f rest fs hkey hw8 hpay hrest ih =>
          intro h2
          generalize hb : key ++ f.payload ++ rest = b' at h2
          cases h2 with
          | nil =>
            have : key = [] := by simp at hb; exact hb.1
            have h0 := hkey []
            rw [this] at h0
            simp [decVarint, decVarintF] at h0
          | @cons key' f' rest' fs' hkey' hw8' hpay' hrest' =>
            have e1 := hkey (f.payload ++ rest)
            have e2 := hkey' (f'.payload ++ rest')
            rw [← List.append_assoc] at e1 e2
            rw [hb, e2] at e1
            simp only [Option.some.injEq, Prod.mk.injEq] at e1
            have hwire : f.wire = f'.wire := by omega
            have htag : f.tag = f'.tag := by omega
            have s1 := hpay rest
            have s2 := hpay' rest'
            rw [e1.2, ← hwire, s1] at s2
            simp only [Except.ok.injEq] at s2
            have hp : f.payload = f'.payload := by
              have := e1.2; rw [← s2] at this; exact (List.append_cancel_right this).symm
            subst s2
            have hf : f = f' := by
              cases f; cases f'; simp_all
            rw [hf, ih hrest']
      have hb : FSNode.fromBytes b = .ok ⟨d⟩ := by
        unfold FSNode.fromBytes Data.unmarshal; rw [hl]; exact h
      obtain ⟨gs, hg, _, _, ⟨f, hf, ht⟩, _⟩ := (C03_decode_iff b ⟨d⟩).mp hb
      rw [← uniq hw hg] at hf
      exact hno f hf ht

/-- Non-vacuity: a concrete two-field message with an unknown field is accepted, one without `Type`
is refused. -/
example : (FSNode.fromBytes [0x08, 0x02, 0x7A, 0x01, 0xFF]).isOk = true := by decide
example : FSNode.fromBytes [0x12, 0x01, 0xFF] = .error .pbRequiredNotSet := by decide
example : Wire [0x12, 0x01, 0xFF] [⟨2, 2, [0x01, 0xFF]⟩] :=
  Wire.cons (key := [0x12]) (f := ⟨2, 2, [0x01, 0xFF]⟩) (rest := [])
    (fun r => by simp [decVarint, decVarintF]) (by decide)
    (fun r => by simp [skipField, skipBytes, decVarint, decVarintF, dropExact]) .nil

/-! ## C04 -/

/-- The link between the node and the caller's view. -/
structure Tracks (n : FSNode) (v : FileView) : Prop where
  data : n.data = v.data
  blocks : n.blockSizes = v.blocks
  size : n.format.getFilesize = UInt64.ofNat v.total

theorem ofNat_sum_map (l : List UInt64) : UInt64.ofNat (l.map UInt64.toNat).sum = l.sum := by
  induction l with
  | nil => rfl
  | cons a r ih => simp [UInt64.ofNat_add, ih]

theorem total_eq (v : FileView) : UInt64.ofNat v.total = UInt64.ofNat v.data.length + v.blocks.sum := by
  simp [FileView.total, UInt64.ofNat_add, ofNat_sum_map]

theorem u64_cancel (a b s : UInt64) : a + (s + b) + (0 - s) = a + b := by
  have : a + (s + b) + (0 - s) = a + b + (s - s) := by
    rw [UInt64.sub_eq_add_neg, UInt64.sub_eq_add_neg, UInt64.zero_add]; ac_rfl
  rw [this, UInt64.sub_self, UInt64.add_zero]

theorem tracks_apply {n : FSNode} {v : FileView} (h : Tracks n v) (o : FSOp) :
    (∃ n' v', n.apply o = .ok n' ∧ v.apply o = some v' ∧ Tracks n' v' ∧ n'.type = n.type) ∨
    (n.apply o = .error .panic ∧ v.apply o = none) := by
  cases o with
  | setData d =>
    refine .inl ⟨_, _, rfl, rfl, ⟨rfl, h.blocks, ?_⟩, rfl⟩
    have hs := h.size
    rw [total_eq] at hs ⊢
    simp only [FSNode.setData, FSNode.updateFilesize, Data.getFilesize, Option.getD_some, h.data]
    simp only [Data.getFilesize] at hs
    rw [hs]
    rw [UInt64.sub_eq_add_neg]
    have : UInt64.ofNat v.data.length + v.blocks.sum + (UInt64.ofNat (d.getD []).length + -UInt64.ofNat v.data.length)
        = UInt64.ofNat (d.getD []).length + v.blocks.sum + (UInt64.ofNat v.data.length + -UInt64.ofNat v.data.length) := by ac_rfl
    rw [this, ← UInt64.sub_eq_add_neg, UInt64.sub_self, UInt64.add_zero]
  | addBlockSize s =>
    refine .inl ⟨_, _, rfl, rfl, ⟨h.data, ?_, ?_⟩, rfl⟩
    · simp only [FSNode.addBlockSize, FSNode.blockSizes, FSNode.updateFilesize]
      rw [← h.blocks]; rfl
    · have hs := h.size
      rw [total_eq] at hs ⊢
      simp only [FSNode.addBlockSize, FSNode.updateFilesize, Data.getFilesize, Option.getD_some]
      simp only [Data.getFilesize] at hs
      rw [hs, List.sum_append]
      simp [UInt64.add_assoc]
  | removeBlockSize i =>
    simp only [FSNode.apply, FSNode.removeBlockSize, FileView.apply]
    have hb : n.format.blocksizes = v.blocks := h.blocks
    rw [hb]
    by_cases hi : i < v.blocks.length
    · left
      rw [List.getElem?_eq_getElem hi, if_pos hi]
      refine ⟨_, _, rfl, rfl, ⟨h.data, ?_, ?_⟩, rfl⟩
      · simp [FSNode.blockSizes, FSNode.updateFilesize, hb, List.eraseIdx_eq_take_drop_succ]
      · have hs := h.size
        rw [total_eq] at hs ⊢
        simp only [FSNode.updateFilesize, Data.getFilesize, Option.getD_some]
        simp only [Data.getFilesize] at hs
        rw [hs]
        have hsum : v.blocks.sum = v.blocks[i] + (v.blocks.eraseIdx i).sum := by
          have e : v.blocks = v.blocks.take i ++ v.blocks[i] :: v.blocks.drop (i + 1) := by
            rw [List.getElem_cons_drop, List.take_append_drop]
          rw [List.eraseIdx_eq_take_drop_succ]
          conv_lhs => rw [e]
          rw [List.sum_append, List.sum_append, List.sum_cons]; ac_rfl
        rw [hsum]
        exact u64_cancel _ _ _
    · right
      rw [List.getElem?_eq_none (by omega), if_neg hi]
      exact ⟨rfl, rfl⟩
  | removeAllBlockSizes =>
    refine .inl ⟨_, _, rfl, rfl, ⟨h.data, rfl, ?_⟩, rfl⟩
    simp [FSNode.removeAllBlockSizes, Data.getFilesize, FileView.total, h.data]

theorem tracks_run {n : FSNode} {v : FileView} (h : Tracks n v) (ops : List FSOp) :
    (∃ n' v', n.runOps ops = .ok n' ∧ v.run ops = some v' ∧ Tracks n' v' ∧ n'.type = n.type) ∨
    (n.runOps ops = .error .panic ∧ v.run ops = none) := by
  induction ops generalizing n v with
  | nil => exact .inl ⟨n, v, rfl, rfl, h, rfl⟩
  | cons o os ih =>
    rcases tracks_apply h o with ⟨n', v', h1, h2, ht, hty⟩ | ⟨h1, h2⟩
    · simp only [FSNode.runOps, h1, FileView.run, h2]
      rcases ih ht with ⟨n'', v'', a, b, c, d⟩ | r
      · exact .inl ⟨n'', v'', a, b, c, by rw [d, hty]⟩
      · exact .inr r
    · right; simp [FSNode.runOps, h1, FileView.run, h2]

/-- **C04.** For every history of mutations on a fresh file (or raw) node: the call panics exactly when
the history removes a block that does not exist; otherwise `Data()`, `BlockSizes()`, `NumChildren()`
and `FileSize()` are what the history says, the last one modulo 2^64. -/
theorem C04_size_accounting (t : UInt32) (ht : t = TFile ∨ t = TRaw) (ops : List FSOp) :
    match (FSNode.new t).runOps ops, FileView.run {} ops with
    | .ok n, some v => n.data = v.data ∧ n.blockSizes = v.blocks ∧ n.numChildren = v.blocks.length ∧
        n.fileSize = UInt64.ofNat v.total ∧ (v.total < 2 ^ 64 → n.fileSize.toNat = v.total)
    | .error e, none => e = .panic
    | _, _ => False := by
  have h0 : Tracks (FSNode.new t) {} := ⟨rfl, rfl, rfl⟩
  rcases tracks_run h0 ops with ⟨n, v, h1, h2, ht', hty⟩ | ⟨h1, h2⟩
  · rw [h1, h2]
    have hfs : n.fileSize = UInt64.ofNat v.total := by
      have hty' : n.format.getType = t := hty
      rw [← ht'.size]
      rcases ht with rfl | rfl <;> simp [FSNode.fileSize, pbSize, hty', TFile, TRaw, TDirectory, THAMTShard]
    refine ⟨ht'.data, ht'.blocks, by rw [← ht'.blocks]; rfl, hfs, fun hlt => ?_⟩
    rw [hfs, UInt64.toNat_ofNat']; exact Nat.mod_eq_of_lt hlt
  · rw [h1, h2]

/-- Non-vacuity: a history with overwriting data, adding and removing blocks. -/
example : FileView.run {} [.addBlockSize 5, .setData (some [1, 2]), .addBlockSize 7, .removeBlockSize 0,
    .setData (some [9])] = some ⟨[9], [7]⟩ := by decide

/-! ## C05 -/

/-- **C05, proved part.** The MIME type survives the round trip. Missing: the `Size` field, see
`C05_metadata_size_lost`. -/
theorem C05_metadata_roundtrip_partial (m : Metadata) (h : m.mimeType.length < 2 ^ 62) :
    ∃ b m', bytesForMetadata m = .ok b ∧ metadataFromBytes b = .ok m' ∧ m'.mimeType = m.mimeType := by
  have hlen : m.bytes.length < 2 ^ 64 := by
    simp only [Metadata.bytes, MetadataMsg.marshal, encOpt, encBytesField, List.append_nil, List.length_append]
    have h1 : ∀ f n, (encVarintF f n).length ≤ f + 1 := by
      intro f
      induction f with
      | zero => intro n; simp [encVarintF]
      | succ f ih => intro n; unfold encVarintF; split <;> simp [ih]
    have a := h1 9 (1 * 8 + 2)
    have b := h1 9 m.mimeType.length
    simp only [encVarint]
    omega
  have w : Data.WF { filesize := some m.size, typ := some TMetadata, data := some m.bytes } :=
    ⟨rfl, by simpa using hlen, .nil⟩
  obtain ⟨b, hb, hu⟩ := Data.unmarshal_marshal _ w
  refine ⟨b, { mimeType := m.mimeType, size := 0 }, hb, ?_, rfl⟩
  simp only [metadataFromBytes, hu, Data.getType, Data.getData, Option.getD_some]
  have := MetadataMsg.unmarshal_marshal m.mimeType (by omega)
  simp only [Metadata.bytes]
  rw [this]
  simp

example : ∃ b m', bytesForMetadata ⟨[116, 47, 112], 5⟩ = .ok b ∧ metadataFromBytes b = .ok m' ∧ m'.mimeType = [116, 47, 112] :=
  C05_metadata_roundtrip_partial ⟨[116, 47, 112], 5⟩ (by decide)

/-- **C05 fails for `Size`**: the size stored by `BytesForMetadata` is not read back by
`MetadataFromBytes`. -/
theorem C05_metadata_size_lost :
    ¬ ∀ (m : Metadata) (b : Bytes), bytesForMetadata m = .ok b → metadataFromBytes b = .ok m := by
  intro h
  have h1 : bytesForMetadata ⟨[116], 5⟩ = .ok [8, 3, 18, 3, 10, 1, 116, 24, 5] := by decide
  have h2 := h _ _ h1
  have h3 : metadataFromBytes [8, 3, 18, 3, 10, 1, 116, 24, 5] = .ok ⟨[116], 0⟩ := by decide
  rw [h3] at h2
  exact absurd h2 (by decide)

end Unixfs
