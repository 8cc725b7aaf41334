import Verif.Pb.Grammar
import Verif.Props.Format

/-!
# C110: the bytes written and read are those of the UnixFS format

`Spec/Bytes.lean` has the format in literal numbers. The definitions in this file belong to statements; they model no code.
-/

namespace Unixfs.Props
open Unixfs Unixfs.Pb Unixfs.Spec

/-- **C110 (reading).** `FSNodeFromBytes` accepts a byte string exactly when it is fields of the format one after the other, a type among
them, and the node has what the fields say together. -/
theorem C110_read (b : Bytes) (n : FSNode) :
    FSNode.fromBytes b = .ok n ↔ ∃ is, Items is b ∧ (∃ v, Item.typ v ∈ is) ∧ n.format = meaning is := by
  rw [← unmarshal_iff]
  unfold FSNode.fromBytes
  split
  next e h => simp [h]
  next d h => obtain ⟨d'⟩ := n; rw [h]; simp

/-- What the accessors of the node return, in terms of the fields: 0 is raw, 1 a directory, 2 a file, 3 metadata, 4 a symlink and 5 a HAMT
shard; a field that is missing reads as 0 or empty. -/
theorem C110_accessors (is : List Item) (n : FSNode) (v : Nat) (h : n.format = meaning is) (hv : lastOf Item.typ? is = some v) (hlt : v < 2 ^ 32) :
    n.type.toNat = v ∧
    n.isDir = decide (v = 1 ∨ v = 5) ∧
    n.data = (lastOf Item.data? is).getD [] ∧
    n.blockSizes = (is.flatMap Item.sizesIn).map UInt64.ofNat ∧
    n.numChildren = n.blockSizes.length ∧
    (∀ i, n.blockSize i = match n.blockSizes[i]? with | some s => .ok s | none => .error .panic) ∧
    n.hashType = UInt64.ofNat ((lastOf Item.hashType? is).getD 0) ∧
    n.fanout = UInt64.ofNat ((lastOf Item.fanout? is).getD 0) ∧
    n.fileSize = (if v = 0 ∨ v = 2 then UInt64.ofNat ((lastOf Item.filesize? is).getD 0)
      else if v = 4 then UInt64.ofNat n.data.length else 0) := by
  have ht : n.format.getType = UInt32.ofNat v := by
    rw [h, Data.getType]
    show ((lastOf _ is).map UInt32.ofNat).getD TRaw = _
    rw [hv]; rfl
  have tn : (UInt32.ofNat v).toNat = v := by rw [UInt32.toNat_ofNat']; exact Nat.mod_eq_of_lt hlt
  have eqv : ∀ k : Nat, k < 2 ^ 32 → (UInt32.ofNat v = UInt32.ofNat k ↔ v = k) := by
    intro k hk
    rw [← UInt32.toNat_inj, tn, UInt32.toNat_ofNat', Nat.mod_eq_of_lt hk]
  have e0 : UInt32.ofNat v = TRaw ↔ v = 0 := eqv 0 (by norm_num)
  have e1 : UInt32.ofNat v = TDirectory ↔ v = 1 := eqv 1 (by norm_num)
  have e2 : UInt32.ofNat v = TFile ↔ v = 2 := eqv 2 (by norm_num)
  have e4 : UInt32.ofNat v = TSymlink ↔ v = 4 := eqv 4 (by norm_num)
  have e5 : UInt32.ofNat v = THAMTShard ↔ v = 5 := eqv 5 (by norm_num)
  refine ⟨?_, ?_, ?_, ?_, rfl, ?_, ?_, ?_, ?_⟩
  · rw [FSNode.type, ht, tn]
  · simp only [FSNode.isDir, FSNode.type, ht]
    rw [Bool.eq_iff_iff]
    simp only [Bool.or_eq_true, beq_iff_eq, decide_eq_true_eq, e1, e5]
  · rw [FSNode.data, h]; rfl
  · rw [FSNode.blockSizes, h]; rfl
  · intro i
    simp only [FSNode.blockSize, FSNode.blockSizes]
    cases n.format.blocksizes[i]? <;> rfl
  · rw [FSNode.hashType, h]
    show ((lastOf _ is).map UInt64.ofNat).getD 0 = _
    cases lastOf _ is <;> rfl
  · rw [FSNode.fanout, h]
    show ((lastOf _ is).map UInt64.ofNat).getD 0 = _
    cases lastOf _ is <;> rfl
  · have hfs : n.format.getFilesize = UInt64.ofNat ((lastOf Item.filesize? is).getD 0) := by
      rw [Data.getFilesize, h]
      show ((lastOf _ is).map UInt64.ofNat).getD 0 = _
      cases lastOf _ is <;> rfl
    simp only [FSNode.fileSize, pbSize, ht, e0, e1, e2, e4, e5, FSNode.data]
    by_cases h1 : v = 1 ∨ v = 5
    · rw [if_pos h1, if_neg (by omega), if_neg (by omega)]
    · rw [if_neg h1]
      by_cases h2 : v = 2 ∨ v = 0
      · rw [if_pos h2, if_pos (by omega), hfs]
      · rw [if_neg h2, if_neg (by omega : ¬(v = 0 ∨ v = 2))]
        by_cases h3 : v = 4
        · rw [if_pos h3, if_pos h3]
        · rw [if_neg h3, if_neg h3]

/-- The bytes of a node as the format has them: the fields in the order of their numbers, those that are not set left out, one field for each
block size, and then the unknown fields as they were. A negative type is written with 64 bits, as protobuf does for enums. -/
def rendered (typ : UInt32) (d : Pb.Data) : Bytes :=
  num 0x08 (if typ.toNat < 2 ^ 31 then typ.toNat else 2 ^ 64 - 2 ^ 32 + typ.toNat)
  ++ (d.data.elim [] (str 0x12)
  ++ (d.filesize.elim [] (fun v => num 0x18 v.toNat)
  ++ (d.blocksizes.flatMap (fun v => num 0x20 v.toNat)
  ++ (d.hashType.elim [] (fun v => num 0x28 v.toNat)
  ++ (d.fanout.elim [] (fun v => num 0x30 v.toNat)
  ++ d.unrec)))))

theorem encVarintField_num (tag v : Nat) (ht : tag < 16) (hv : v < 2 ^ 64) : encVarintField tag v = num (UInt8.ofNat (tag * 8)) v := by
  rw [encVarintField, encVarint_leb hv, encVarint_leb (by omega), leb, if_pos (by omega)]; rfl

theorem encBytesField_str (tag : Nat) (d : Bytes) (ht : tag < 15) (hv : d.length < 2 ^ 64) : encBytesField tag d = str (UInt8.ofNat (tag * 8 + 2)) d := by
  rw [encBytesField, encVarint_leb hv, encVarint_leb (by omega), leb, if_pos (by omega)]; rfl

theorem marshal_rendered (d : Pb.Data) (t : UInt32) (ht : d.typ = some t) (hd : ∀ x, d.data = some x → x.length < 2 ^ 64) : d.marshal = .ok (rendered t d) := by
  have hs : signExt t = if t.toNat < 2 ^ 31 then t.toNat else 2 ^ 64 - 2 ^ 32 + t.toNat := by
    unfold signExt; split <;> omega
  have hs64 : signExt t < 2 ^ 64 := by
    have := t.toNat_lt; unfold signExt; split <;> omega
  have hb : ∀ l : List UInt64, encBlocksizes l = l.flatMap (fun v => num 0x20 v.toNat) := by
    intro l
    induction l with
    | nil => rfl
    | cons s l ih => rw [encBlocksizes, encVarintField_num 4 _ (by omega) s.toNat_lt, ih]; rfl
  have ho : ∀ (tag : Nat) (o : Option UInt64), tag < 16 → encOpt (fun v => encVarintField tag (UInt64.toNat v)) o = o.elim [] (fun v => num (UInt8.ofNat (tag * 8)) v.toNat) := by
    intro tag o h
    cases o with
    | none => rfl
    | some v => exact encVarintField_num tag _ h v.toNat_lt
  have hdd : encOpt (encBytesField 2) d.data = d.data.elim [] (str 0x12) := by
    cases e : d.data with
    | none => rfl
    | some x => exact encBytesField_str 2 x (by omega) (hd x e)
  unfold Data.marshal rendered
  rw [ht]
  simp only [hb, ho 3 _ (by omega : 3 < 16), ho 5 _ (by omega : 5 < 16), ho 6 _ (by omega : 6 < 16), hdd, encVarintField_num 1 _ (by omega : 1 < 16) hs64]
  rw [hs]
  rfl

/-- **C110 (writing).** The bytes of every node that the API can produce are those of the format. -/
theorem C110_write (n : FSNode) (h : ApiNode n) : n.getBytes = .ok (rendered n.type n.format) := by
  have w := apiNode_wf h
  obtain ⟨t, ht⟩ := Option.isSome_iff_exists.mp w.typ
  have : n.type = t := by rw [FSNode.type, Data.getType, ht]; rfl
  rw [this]
  exact marshal_rendered _ _ ht w.data

/-- **C110 (constructors).** The bytes of a file, a directory, wrapped data, a symlink, a HAMT shard and a metadata node. -/
theorem C110_constructors (d : Option Bytes) (path mime : Bytes) (total fanout ht size : UInt64) (hd : (d.getD []).length < 2 ^ 63) (hp : path.length < 2 ^ 63)
    (hm : mime.length < 2 ^ 62) :
    filePBData d total = [0x08, 2] ++ d.elim [] (str 0x12) ++ num 0x18 total.toNat ∧
    folderPBData = [0x08, 1] ∧
    wrapData d = [0x08, 0] ++ d.elim [] (str 0x12) ++ num 0x18 (d.getD []).length ∧
    symlinkData path = .ok ([0x08, 4] ++ str 0x12 path) ∧
    hamtShardData d fanout ht = .ok ([0x08, 5] ++ d.elim [] (str 0x12) ++ num 0x28 ht.toNat ++ num 0x30 fanout.toNat) ∧
    bytesForMetadata ⟨mime, size⟩ = .ok ([0x08, 3] ++ str 0x12 (str 0x0a mime) ++ num 0x18 size.toNat) ∧
    Metadata.bytes ⟨mime, size⟩ = str 0x0a mime := by
  have small : ∀ n : Nat, n < 128 → num 0x08 n = [0x08, UInt8.ofNat n] := by
    intro n h; rw [num, leb, if_pos h]
  have hdl : ∀ x, d = some x → x.length < 2 ^ 64 := by
    intro x hx; subst hx; simp at hd; omega
  have mm : ∀ (e : Pb.Data) (b : Bytes), e.marshal = .ok b → mustMarshal e = b := by
    intro e b h; rw [mustMarshal, h]
  have mb : Metadata.bytes ⟨mime, size⟩ = str 0x0a mime := by
    rw [Metadata.bytes, MetadataMsg.marshal, encOpt, encBytesField_str 1 mime (by omega) (by omega)]
    simp
  have mbl : (str 0x0a mime).length < 2 ^ 64 := by
    have hl : ∀ (n v : Nat), v < 128 ^ (n + 1) → (leb v).length ≤ n + 1 := by
      intro n
      induction n with
      | zero => intro v h; rw [leb, if_pos (by simpa using h)]; rfl
      | succ n ih =>
        intro v h
        rw [leb]
        split
        · simp
        · have := ih (v / 128) (by rw [Nat.div_lt_iff_lt_mul (by norm_num)]; rw [pow_succ] at h; exact h)
          simp only [List.length_cons]; omega
    have := hl 9 mime.length (Nat.lt_trans hm (by norm_num))
    simp only [str, List.length_cons, List.length_append]
    omega
  refine ⟨?_, ?_, ?_, ?_, ?_, ?_, mb⟩
  · rw [filePBData, mm _ _ (marshal_rendered _ TFile rfl hdl)]
    have := small 2 (by norm_num)
    simp [rendered, TFile, this]
  · rw [folderPBData, mm _ _ (marshal_rendered _ TDirectory rfl (by simp))]
    have := small 1 (by norm_num)
    simp [rendered, TDirectory, this]
  · rw [wrapData, mm _ _ (marshal_rendered _ TRaw rfl hdl)]
    have := small 0 (by norm_num)
    have hn : (UInt64.ofNat (d.getD []).length).toNat = (d.getD []).length := by
      rw [UInt64.toNat_ofNat']; exact Nat.mod_eq_of_lt (by omega)
    simp only [rendered, Option.elim_some, Option.elim_none, List.flatMap_nil, List.append_nil, hn]
    simp [TRaw, this]
  · rw [symlinkData, marshal_rendered _ TSymlink rfl (by simp; omega)]
    have := small 4 (by norm_num)
    simp [rendered, TSymlink, this]
  · rw [hamtShardData, marshal_rendered _ THAMTShard rfl hdl]
    have := small 5 (by norm_num)
    simp [rendered, THAMTShard, this]
  · rw [bytesForMetadata, mb, marshal_rendered _ TMetadata rfl (by simpa using mbl)]
    have := small 3 (by norm_num)
    simp [rendered, TMetadata, this]

/-- **C110 (metadata).** `MetadataFromBytes` accepts exactly a node of type 3 whose data is fields of the metadata message, and the last MIME
type counts. -/
theorem C110_metadata (b : Bytes) (m : Metadata) :
    metadataFromBytes b = .ok m ↔ ∃ n ms, FSNode.fromBytes b = .ok n ∧ n.type = 3 ∧ MetaItems ms n.data ∧
      m = ⟨((ms.filterMap MetaItem.mime?).getLast?).getD [], 0⟩ := by
  unfold metadataFromBytes FSNode.fromBytes
  cases h : Pb.Data.unmarshal b with
  | error e => simp
  | ok d =>
    dsimp only
    by_cases ht : d.getType = TMetadata
    · rw [if_neg (by simp [ht])]
      constructor
      · intro hm
        cases e : MetadataMsg.unmarshal d.getData with
        | error e' => rw [e] at hm; cases hm
        | ok p =>
          rw [e] at hm
          cases hm
          obtain ⟨is, h1, h2⟩ := munmarshal_iff.mp ⟨p, e, rfl⟩
          exact ⟨⟨d⟩, is, rfl, ht, h1, by rw [h2]⟩
      · rintro ⟨n, ms, hn, _, h1, rfl⟩
        cases hn
        obtain ⟨p, e, h2⟩ := munmarshal_iff.mpr ⟨ms, h1, rfl⟩
        have e : MetadataMsg.unmarshal d.getData = .ok p := e
        rw [e]
        show Except.ok (ε := Err) (Metadata.mk (p.mimeType.getD []) 0) = _
        rw [h2]
    · rw [if_pos ht]
      constructor
      · intro h; cases h
      · rintro ⟨n, ms, hn, h3, _⟩
        cases hn
        exact absurd h3 ht

/-- A message with a field number that the schema does not have, a group in a group, and block sizes in both forms. -/
example : Items [.typ 2, .sizes [300], .sizes [1, 2], .unknown 59 [0x3b, 0x3c, 0x3c]]
    [0x08, 2, 0x20, 0xac, 2, 0x22, 2, 1, 2, 0x3b, 0x3b, 0x3c, 0x3c] := by
  have one : ∀ b : UInt8, b.toNat < 128 → V64 b.toNat [b] := fun b h => ⟨.last h, by simp, by omega⟩
  have t : V64 300 [0xac, 2] := ⟨.more (b := 0xac) (v := 2) (by decide) (.last (b := 2) (by decide)), by simp, by norm_num⟩
  exact .cons (.typ (one 0x08 (by decide)) (one 2 (by decide)))
    (.cons (.size (one 0x20 (by decide)) t)
    (.cons (.packed (body := [1, 2]) (one 0x22 (by decide)) (one 2 (by decide)) (.cons (one 1 (by decide)) (.cons (one 2 (by decide)) .nil)))
    (.cons (.unknown (x := 59) (one 0x3b (by decide)) (by decide) (by decide)
      (.group (.field (x := 59) (one 0x3b (by decide)) (.group (.stop (x := 60) (one 0x3c (by decide)) rfl)) (.stop (x := 60) (one 0x3c (by decide)) rfl)))) .nil)))

example : (FSNode.fromBytes [0x08, 2, 0x20, 0xac, 2, 0x22, 2, 1, 2, 0x3b, 0x3b, 0x3c, 0x3c]).map (fun n => (n.type, n.blockSizes, n.isDir)) = .ok (2, [300, 1, 2], false) := by
  decide +kernel

/-- A node that the API can produce, and its bytes. -/
example : ((FSNode.new TFile |>.setData (some [9])).addBlockSize 300).getBytes = .ok [0x08, 2, 0x12, 1, 9, 0x18, 0xad, 2, 0x20, 0xac, 2] := by decide +kernel

example : metadataFromBytes [0x08, 3, 0x12, 3, 0x0a, 1, 116] = .ok ⟨[116], 0⟩ := by decide +kernel

end Unixfs.Props
