import Verif.Pb.Message

/-!
# `/repo/unixfs.go`: the unixfs payload and `FSNode`

`nil` and empty byte slices are distinguished only where the codec distinguishes them
(`Option Bytes`, `none` = nil).
-/

namespace Unixfs

open Pb

/-- unixfs.go:27-40, pb/unixfs.proto:6-13: the enum values. -/
def TRaw : UInt32 := 0
/-- pb/unixfs.proto:6-13, exported at unixfs.go:27-40. -/
def TDirectory : UInt32 := 1
/-- pb/unixfs.proto:6-13, exported at unixfs.go:27-40. -/
def TFile : UInt32 := 2
/-- pb/unixfs.proto:6-13, exported at unixfs.go:27-40. -/
def TMetadata : UInt32 := 3
/-- pb/unixfs.proto:6-13, exported at unixfs.go:27-40. -/
def TSymlink : UInt32 := 4
/-- pb/unixfs.proto:6-13, exported at unixfs.go:27-40. -/
def THAMTShard : UInt32 := 5

/-- `pb.Data.GetType`: the default of an unset `Type` is `Data_Raw` (pb/unixfs.pb.go `GetType`). -/
def Pb.Data.getType (d : Pb.Data) : UInt32 := d.typ.getD TRaw

/-- `GetData` (nil reads as empty). pb/unixfs.pb.go:129-134. -/
def Pb.Data.getData (d : Pb.Data) : Bytes := d.data.getD []

/-- `GetFilesize`. pb/unixfs.pb.go:136-141. -/
def Pb.Data.getFilesize (d : Pb.Data) : UInt64 := d.filesize.getD 0

/-- Marshalling in functions that panic on error (unixfs.go:74-83, 94-99, 112-116). The only marshal
error is a missing `Type`; theorem `mustMarshal_ok` in `Verif.Props.Format` shows it cannot happen. -/
def mustMarshal (d : Pb.Data) : Bytes :=
  match d.marshal with
  | .ok b => b
  | .error _ => []

/-- unixfs.go:54-61 `FromBytes`. -/
def fromBytes (b : Bytes) : Except Err Pb.Data := Pb.Data.unmarshal b

/-- unixfs.go:67-84 `FilePBData`. -/
def filePBData (data : Option Bytes) (totalsize : UInt64) : Bytes :=
  mustMarshal { typ := some TFile, data := data, filesize := some totalsize }

/-- unixfs.go:89-100 `FolderPBData`. -/
def folderPBData : Bytes := mustMarshal { typ := some TDirectory }

/-- unixfs.go:105-119 `WrapData`. -/
def wrapData (b : Option Bytes) : Bytes :=
  mustMarshal { typ := some TRaw, data := b, filesize := some (UInt64.ofNat (b.getD []).length) }

/-- unixfs.go:124-136 `SymlinkData`. -/
def symlinkData (path : Bytes) : Except Err Bytes :=
  Pb.Data.marshal { typ := some TSymlink, data := some path }

/-- unixfs.go:141-155 `HAMTShardData`. -/
def hamtShardData (data : Option Bytes) (fanout hashType : UInt64) : Except Err Bytes :=
  Pb.Data.marshal { typ := some THAMTShard, hashType := some hashType, data := data, fanout := some fanout }

/-- unixfs.go:160-167 `UnwrapData`. -/
def unwrapData (b : Bytes) : Except Err Bytes :=
  match Pb.Data.unmarshal b with
  | .error e => .error e
  | .ok d => .ok d.getData

/-- unixfs.go:184-195 `size`. -/
def pbSize (d : Pb.Data) : Except Err UInt64 :=
  if d.getType = TDirectory ∨ d.getType = THAMTShard then .error .dirDataSize
  else if d.getType = TFile ∨ d.getType = TRaw then .ok d.getFilesize
  else if d.getType = TSymlink then .ok (UInt64.ofNat d.getData.length)
  else .error .unrecognizedDataType

/-- unixfs.go:175-182 `DataSize`. -/
def dataSize (b : Bytes) : Except Err UInt64 :=
  match Pb.Data.unmarshal b with
  | .error e => .error e
  | .ok d => pbSize d

/-- unixfs.go:204-208 `type FSNode struct`. -/
structure FSNode where
  format : Pb.Data
deriving DecidableEq, Repr

namespace FSNode

/-- unixfs.go:213-221 `FSNodeFromBytes`. -/
def fromBytes (b : Bytes) : Except Err FSNode :=
  match Pb.Data.unmarshal b with
  | .error e => .error e
  | .ok d => .ok ⟨d⟩

/-- unixfs.go:319-322 `UpdateFilesize`. The signed difference is given by its two's-complement
64-bit pattern, so that the `int64` addition and the conversions are addition modulo 2^64. -/
def updateFilesize (n : FSNode) (diff : UInt64) : FSNode :=
  ⟨{ n.format with filesize := some (n.format.getFilesize + diff) }⟩

/-- unixfs.go:237-245 `NewFSNode`. -/
def new (t : UInt32) : FSNode := updateFilesize ⟨{ typ := some t }⟩ 0

/-- unixfs.go:248-255. -/
def hashType (n : FSNode) : UInt64 := n.format.hashType.getD 0
/-- unixfs.go:253-255 `Fanout`. -/
def fanout (n : FSNode) : UInt64 := n.format.fanout.getD 0

/-- unixfs.go:258-261 `AddBlockSize`. -/
def addBlockSize (n : FSNode) (s : UInt64) : FSNode :=
  let n' := n.updateFilesize s
  ⟨{ n'.format with blocksizes := n'.format.blocksizes ++ [s] }⟩

/-- unixfs.go:264-267 `RemoveBlockSize`; indexing out of range panics. -/
def removeBlockSize (n : FSNode) (i : Nat) : Except Err FSNode :=
  match n.format.blocksizes[i]? with
  | none => .error .panic
  | some s =>
    let n' := n.updateFilesize (0 - s)
    .ok ⟨{ n'.format with blocksizes := n'.format.blocksizes.take i ++ n'.format.blocksizes.drop (i + 1) }⟩

/-- unixfs.go:271-273 `BlockSize`. -/
def blockSize (n : FSNode) (i : Nat) : Except Err UInt64 :=
  match n.format.blocksizes[i]? with
  | none => .error .panic
  | some s => .ok s

/-- unixfs.go:276-278 `BlockSizes`. -/
def blockSizes (n : FSNode) : List UInt64 := n.format.blocksizes

/-- unixfs.go:305-307 `Data`. -/
def data (n : FSNode) : Bytes := n.format.getData

/-- unixfs.go:281-284 `RemoveAllBlockSizes`. -/
def removeAllBlockSizes (n : FSNode) : FSNode :=
  ⟨{ n.format with blocksizes := [], filesize := some (UInt64.ofNat n.data.length) }⟩

/-- unixfs.go:287-289 `GetBytes`. -/
def getBytes (n : FSNode) : Except Err Bytes := n.format.marshal

/-- unixfs.go:292-297 `FileSize`: an error of `size` is dropped, its value is then 0. -/
def fileSize (n : FSNode) : UInt64 :=
  match pbSize n.format with
  | .ok s => s
  | .error _ => 0

/-- unixfs.go:300-302 `NumChildren`. -/
def numChildren (n : FSNode) : Nat := n.format.blocksizes.length

/-- unixfs.go:311-314 `SetData`. -/
def setData (n : FSNode) (newData : Option Bytes) : FSNode :=
  let n' := n.updateFilesize (UInt64.ofNat (newData.getD []).length - UInt64.ofNat n.data.length)
  ⟨{ n'.format with data := newData }⟩

/-- unixfs.go:325-327 `Type`. -/
def type (n : FSNode) : UInt32 := n.format.getType

/-- unixfs.go:330-337 `IsDir`. -/
def isDir (n : FSNode) : Bool := n.type == TDirectory || n.type == THAMTShard

end FSNode

/-- unixfs.go:342-345 `type Metadata struct`. -/
structure Metadata where
  mimeType : Bytes
  size : UInt64
deriving DecidableEq, Repr

/-- unixfs.go:351-369 `MetadataFromBytes`. -/
def metadataFromBytes (b : Bytes) : Except Err Metadata :=
  match Pb.Data.unmarshal b with
  | .error e => .error e
  | .ok pbd =>
    if pbd.getType ≠ TMetadata then .error .incorrectNodeType
    else match Pb.MetadataMsg.unmarshal pbd.getData with
      | .error e => .error e
      | .ok pbm => .ok { mimeType := pbm.mimeType.getD [], size := 0 }

/-- unixfs.go:372-376 `Metadata.Bytes`. -/
def Metadata.bytes (m : Metadata) : Bytes := Pb.MetadataMsg.marshal { mimeType := some m.mimeType }

/-- unixfs.go:383-395 `BytesForMetadata`. -/
def bytesForMetadata (m : Metadata) : Except Err Bytes :=
  Pb.Data.marshal { filesize := some m.size, typ := some TMetadata, data := some m.bytes }

end Unixfs
