import Verif.Pb.Message

/-!
# Specification of the protobuf wire format of a unixfs `Data` message

Independent of the decoder's loop: a byte string is a sequence of fields; the meaning of a message is
read off the list of its fields ("last one wins" for optional fields, concatenation for repeated
ones, everything else is kept verbatim).
-/

namespace Unixfs.Spec

open Pb

/-- One wire field: field number, wire type and the bytes after the key. -/
structure Field where
  tag : Nat
  wire : Nat
  payload : Bytes

/-- `Wire b fs`: the byte string `b` is the concatenation of the fields `fs`. A field is a key varint
`8·tag + wire` followed by a payload that is delimited by the wire type. -/
inductive Wire : Bytes → List Field → Prop
  | nil : Wire [] []
  | cons {key : Bytes} {f : Field} {rest : Bytes} {fs : List Field}
      (hkey : ∀ r, decVarint (key ++ r) = some (8 * f.tag + f.wire, r)) (hw : f.wire < 8)
      (hpay : ∀ r, skipField f.wire (f.payload ++ r) = .ok r)
      (hrest : Wire rest fs) : Wire (key ++ f.payload ++ rest) (f :: fs)

/-- The value of a varint payload. -/
def varintOf (p : Bytes) : Nat := match decVarint p with | some (v, _) => v | none => 0

/-- The contents of a length-delimited payload. -/
def bytesOf (p : Bytes) : Bytes := match decBytes p with | some (d, _) => d | none => []

/-- Last varint value of field `t`, if any. -/
def lastVarint (t : Nat) (fs : List Field) : Option Nat :=
  ((fs.filter (fun f => f.tag == t && f.wire == 0)).getLast?).map (fun f => varintOf f.payload)

/-- Last length-delimited value of field `t`, if any. -/
def lastBytes (t : Nat) (fs : List Field) : Option Bytes :=
  ((fs.filter (fun f => f.tag == t && f.wire == 2)).getLast?).map (fun f => bytesOf f.payload)

/-- Block sizes contributed by one field (unpacked or packed). -/
def sizesOf (f : Field) : List UInt64 :=
  if f.tag = 4 ∧ f.wire = 0 then [UInt64.ofNat (varintOf f.payload)]
  else if f.tag = 4 ∧ f.wire = 2 then
    (decPacked (bytesOf f.payload).length (bytesOf f.payload)).getD []
  else []

/-- Does the schema (pb/unixfs.proto:15-21) define this field with this wire type? -/
def inSchema (f : Field) : Bool :=
  (f.tag, f.wire) ∈ [(1, 0), (2, 2), (3, 0), (4, 0), (4, 2), (5, 0), (6, 0)]

/-- Bytes kept for a field outside the schema. -/
def keepUnknown (f : Field) : Bytes :=
  if inSchema f then [] else encVarint (8 * f.tag + f.wire) ++ f.payload

/-- The message denoted by a list of fields. -/
def message (fs : List Field) : Data where
  typ := (lastVarint 1 fs).map UInt32.ofNat
  data := lastBytes 2 fs
  filesize := (lastVarint 3 fs).map UInt64.ofNat
  blocksizes := fs.flatMap sizesOf
  hashType := (lastVarint 5 fs).map UInt64.ofNat
  fanout := (lastVarint 6 fs).map UInt64.ofNat
  unrec := fs.flatMap keepUnknown

end Unixfs.Spec
