import Verif.Pb.Varint

/-!
# The two protobuf messages of `/repo/pb/unixfs.proto`, and their codec

Models `pb.Data` and `pb.Metadata` (pb/unixfs.pb.go) as (un)marshalled by gogo/protobuf v1.3.2's
table-driven codec (`table_marshal.go`, `table_unmarshal.go`).
-/

namespace Unixfs.Pb

/-- pb/unixfs.proto:5-22 `message Data` (pb/unixfs.pb.go `type Data struct`).
`typ` is the bit pattern of the `int32` enum; `unrec` is `XXX_unrecognized`. -/
structure Data where
  typ : Option UInt32 := none
  data : Option Bytes := none
  filesize : Option UInt64 := none
  blocksizes : List UInt64 := []
  hashType : Option UInt64 := none
  fanout : Option UInt64 := none
  unrec : Bytes := []
deriving DecidableEq, Repr

/-- Sign extension `uint64(int32)` used by the codec to write an enum.
Dependency gogo/protobuf, reached from pb/unixfs.pb.go:104-109. -/
def signExt (t : UInt32) : Nat := if t.toNat < 2 ^ 31 then t.toNat else t.toNat + (2 ^ 64 - 2 ^ 32)

/-- A varint field: key `(tag << 3) | 0`, then the value.
Dependency gogo/protobuf, reached from pb/unixfs.pb.go:104-109. -/
def encVarintField (tag v : Nat) : Bytes := encVarint (tag * 8) ++ encVarint v

/-- A length-delimited field: key `(tag << 3) | 2`, length, payload.
Dependency gogo/protobuf, reached from pb/unixfs.pb.go:104-109. -/
def encBytesField (tag : Nat) (b : Bytes) : Bytes :=
  encVarint (tag * 8 + 2) ++ (encVarint b.length ++ b)

/-- Dependency gogo/protobuf, reached from pb/unixfs.pb.go:104-109. -/
def encOpt {α : Type} (f : α → Bytes) : Option α → Bytes
  | none => []
  | some a => f a

/-- Repeated `uint64 blocksizes = 4` is written unpacked (proto2 default, pb/unixfs.pb.go struct tag
`varint,4,rep,name=blocksizes`). -/
def encBlocksizes : List UInt64 → Bytes
  | [] => []
  | s :: r => encVarintField 4 s.toNat ++ encBlocksizes r

/-- `proto.Marshal(*pb.Data)`: fields in tag order, then `XXX_unrecognized`; a missing required
`Type` is an error. pb/unixfs.pb.go:107-109, called at unixfs.go:74, 94, 112, 130, 149, 288, 394. -/
def Data.marshal (m : Data) : Except Err Bytes :=
  match m.typ with
  | none => .error .pbRequiredNotSet
  | some t => .ok <|
      encVarintField 1 (signExt t)
      ++ (encOpt (encBytesField 2) m.data
      ++ (encOpt (fun v => encVarintField 3 (UInt64.toNat v)) m.filesize
      ++ (encBlocksizes m.blocksizes
      ++ (encOpt (fun v => encVarintField 5 (UInt64.toNat v)) m.hashType
      ++ (encOpt (fun v => encVarintField 6 (UInt64.toNat v)) m.fanout
      ++ m.unrec)))))

/-! ## Decoding -/

/-- Drop `n` bytes, or fail when there are fewer (`len(b) < n`).
Dependency gogo/protobuf, reached from pb/unixfs.pb.go:104-109. -/
def dropExact (n : Nat) (b : Bytes) : Option Bytes := if b.length < n then none else some (b.drop n)

/-- Skips a length-delimited payload. Dependency gogo/protobuf, reached from pb/unixfs.pb.go:104-109. -/
def skipBytes (b : Bytes) : Option Bytes :=
  match decVarint b with
  | none => none
  | some (m, r) => dropExact m r

/-- `findEndGroup` with explicit nesting depth. `fuel` bounds the number of fields (each consumes at
least one byte, so the length of the input is enough).
Dependency gogo/protobuf, reached from pb/unixfs.pb.go:104-109. -/
def skipGroup : Nat → Nat → Bytes → Option Bytes
  | 0, _, _ => none
  | fuel + 1, depth, b =>
    match decVarint b with
    | none => none
    | some (x, r) =>
      if x % 8 = 0 then (match decVarint r with | none => none | some (_, r') => skipGroup fuel depth r')
      else if x % 8 = 1 then (match dropExact 8 r with | none => none | some r' => skipGroup fuel depth r')
      else if x % 8 = 2 then (match skipBytes r with | none => none | some r' => skipGroup fuel depth r')
      else if x % 8 = 3 then skipGroup fuel (depth + 1) r
      else if x % 8 = 4 then (if depth = 1 then some r else skipGroup fuel (depth - 1) r)
      else if x % 8 = 5 then (match dropExact 4 r with | none => none | some r' => skipGroup fuel depth r')
      else none

/-- `skipField`: the remaining input after a field of the given wire type.
Dependency gogo/protobuf, reached from pb/unixfs.pb.go:104-109. -/
def skipField (wire : Nat) (b : Bytes) : Except Err Bytes :=
  if wire = 0 then (match decVarint b with | none => .error .pbUnexpectedEOF | some (_, r) => .ok r)
  else if wire = 1 then (match dropExact 8 b with | none => .error .pbUnexpectedEOF | some r => .ok r)
  else if wire = 2 then (match skipBytes b with | none => .error .pbUnexpectedEOF | some r => .ok r)
  else if wire = 3 then (match skipGroup b.length 1 b with | none => .error .pbUnexpectedEOF | some r => .ok r)
  else if wire = 5 then (match dropExact 4 b with | none => .error .pbUnexpectedEOF | some r => .ok r)
  else .error .pbBadWireType

/-- All varints in a packed payload. `fuel`: the payload's length is enough.
Dependency gogo/protobuf, reached from pb/unixfs.pb.go:104-109. -/
def decPacked : Nat → Bytes → Option (List UInt64)
  | _, [] => some []
  | 0, _ :: _ => none
  | fuel + 1, b =>
    match decVarint b with
    | none => none
    | some (v, r) =>
      match decPacked fuel r with
      | none => none
      | some l => some (UInt64.ofNat v :: l)

/-- A length-delimited payload: `(payload, rest)`.
Dependency gogo/protobuf, reached from pb/unixfs.pb.go:104-109. -/
def decBytes (b : Bytes) : Option (Bytes × Bytes) :=
  match decVarint b with
  | none => none
  | some (n, r) => if r.length < n then none else some (r.take n, r.drop n)

/-- Is `(tag, wire)` a field this message decodes (as opposed to keeping it in
`XXX_unrecognized`)? pb/unixfs.proto:15-21. -/
def Data.known (tag wire : Nat) : Bool :=
  (tag == 1 && wire == 0) || (tag == 2 && wire == 2) || (tag == 3 && wire == 0) ||
  (tag == 4 && wire == 0) || (tag == 4 && wire == 2) || (tag == 5 && wire == 0) || (tag == 6 && wire == 0)

/-- A varint value with a typed error. Dependency gogo/protobuf, reached from pb/unixfs.pb.go:104-109. -/
def needVarint (b : Bytes) : Except Err (Nat × Bytes) :=
  match decVarint b with
  | none => .error .pbUnexpectedEOF
  | some p => .ok p

/-- Decode one field, whose key has already been read, into the message. Known fields with a bad
wire type and unknown fields are appended to `XXX_unrecognized` with a re-encoded key. Tag 0 is
rejected. Dependency gogo/protobuf, reached from pb/unixfs.pb.go:104-109. -/
def Data.step (m : Data) (x : Nat) (b : Bytes) : Except Err (Data × Bytes) :=
  let tag := x / 8
  let wire := x % 8
  if tag = 0 then .error .pbIllegalTag
  else if tag = 1 ∧ wire = 0 then do
    let (v, r) ← needVarint b
    return ({ m with typ := some (UInt32.ofNat v) }, r)
  else if tag = 2 ∧ wire = 2 then
    match decBytes b with
    | none => .error .pbUnexpectedEOF
    | some (d, r) => .ok ({ m with data := some d }, r)
  else if tag = 3 ∧ wire = 0 then do
    let (v, r) ← needVarint b
    return ({ m with filesize := some (UInt64.ofNat v) }, r)
  else if tag = 4 ∧ wire = 0 then do
    let (v, r) ← needVarint b
    return ({ m with blocksizes := m.blocksizes ++ [UInt64.ofNat v] }, r)
  else if tag = 4 ∧ wire = 2 then
    match decBytes b with
    | none => .error .pbUnexpectedEOF
    | some (d, r) =>
      match decPacked d.length d with
      | none => .error .pbUnexpectedEOF
      | some l => .ok ({ m with blocksizes := m.blocksizes ++ l }, r)
  else if tag = 5 ∧ wire = 0 then do
    let (v, r) ← needVarint b
    return ({ m with hashType := some (UInt64.ofNat v) }, r)
  else if tag = 6 ∧ wire = 0 then do
    let (v, r) ← needVarint b
    return ({ m with fanout := some (UInt64.ofNat v) }, r)
  else do
    let r ← skipField wire b
    return ({ m with unrec := m.unrec ++ (encVarint x ++ b.take (b.length - r.length)) }, r)

/-- The decode loop. `fuel`: the input's length is enough, every field consumes a byte.
Dependency gogo/protobuf, reached from pb/unixfs.pb.go:104-109. -/
def Data.loop : Nat → Data → Bytes → Except Err Data
  | _, m, [] => .ok m
  | 0, _, _ :: _ => .error .pbUnexpectedEOF
  | fuel + 1, m, b@(_ :: _) =>
    match decVarint b with
    | none => .error .pbUnexpectedEOF
    | some (x, r) =>
      match m.step x r with
      | .error e => .error e
      | .ok (m', r') => Data.loop fuel m' r'

/-- `proto.Unmarshal(b, *pb.Data)` into a fresh message.
pb/unixfs.pb.go:104-106, called at unixfs.go:56, 162, 177, 215, 353. -/
def Data.unmarshal (b : Bytes) : Except Err Data :=
  match Data.loop b.length {} b with
  | .error e => .error e
  | .ok m => if m.typ.isNone then .error .pbRequiredNotSet else .ok m

/-! ## `message Metadata` (pb/unixfs.proto:24-26) -/

/-- pb/unixfs.pb.go `type Metadata struct`. -/
structure MetadataMsg where
  mimeType : Option Bytes := none
  unrec : Bytes := []
deriving DecidableEq, Repr

/-- `proto.Marshal(*pb.Metadata)`. pb/unixfs.pb.go:181-183, called at unixfs.go:375. -/
def MetadataMsg.marshal (m : MetadataMsg) : Bytes := encOpt (encBytesField 1) m.mimeType ++ m.unrec

/-- One field; dependency gogo/protobuf, reached from pb/unixfs.pb.go:178-180. -/
def MetadataMsg.step (m : MetadataMsg) (x : Nat) (b : Bytes) : Except Err (MetadataMsg × Bytes) :=
  let tag := x / 8
  let wire := x % 8
  if tag = 0 then .error .pbIllegalTag
  else if tag = 1 ∧ wire = 2 then
    match decBytes b with
    | none => .error .pbUnexpectedEOF
    | some (d, r) => .ok ({ m with mimeType := some d }, r)
  else do
    let r ← skipField wire b
    return ({ m with unrec := m.unrec ++ (encVarint x ++ b.take (b.length - r.length)) }, r)

/-- The decode loop; dependency gogo/protobuf, reached from pb/unixfs.pb.go:178-180. -/
def MetadataMsg.loop : Nat → MetadataMsg → Bytes → Except Err MetadataMsg
  | _, m, [] => .ok m
  | 0, _, _ :: _ => .error .pbUnexpectedEOF
  | fuel + 1, m, b@(_ :: _) =>
    match decVarint b with
    | none => .error .pbUnexpectedEOF
    | some (x, r) =>
      match m.step x r with
      | .error e => .error e
      | .ok (m', r') => MetadataMsg.loop fuel m' r'

/-- `proto.Unmarshal(b, *pb.Metadata)` (proto2: strings are not validated as UTF-8).
pb/unixfs.pb.go:178-180, called at unixfs.go:362. -/
def MetadataMsg.unmarshal (b : Bytes) : Except Err MetadataMsg := MetadataMsg.loop b.length {} b

end Unixfs.Pb
