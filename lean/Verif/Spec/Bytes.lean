import Verif.Pb.Message

/-!
# The bytes of the UnixFS format (C110)

The protobuf encoding (https://protobuf.dev/programming-guides/encoding/) and the schema of UnixFS, written down with literal
numbers and without the functions of the model. The definitions in this file belong to statements; they model no code.
-/

namespace Unixfs.Spec
open Unixfs

/-- `bs` is a base-128 number with the value `v`, least significant digit first; all bytes but the last have the high
bit. -/
inductive Varint : Nat → Bytes → Prop
  | last {b : UInt8} : b.toNat < 128 → Varint b.toNat [b]
  | more {b : UInt8} {v : Nat} {bs : Bytes} : 128 ≤ b.toNat → Varint v bs → Varint (b.toNat - 128 + 128 * v) (b :: bs)

/-- A base-128 number of 64 bits, in at most 10 bytes. -/
def V64 (v : Nat) (bs : Bytes) : Prop := Varint v bs ∧ bs.length ≤ 10 ∧ v < 2 ^ 64

/-- The shortest base-128 number with the value `n`. -/
def leb (n : Nat) : Bytes := if n < 128 then [UInt8.ofNat n] else UInt8.ofNat (n % 128 + 128) :: leb (n / 128)

mutual
/-- What follows the key of a field of wire type `w`: a number, 8 bytes, a length and as many bytes, a group, 4 bytes. -/
inductive Payload : (w : Nat) → Bytes → Prop
  | varint {v : Nat} {bs : Bytes} : V64 v bs → Payload 0 bs
  | fixed64 {bs : Bytes} : bs.length = 8 → Payload 1 bs
  | bytes {len d : Bytes} : V64 d.length len → Payload 2 (len ++ d)
  | group {bs : Bytes} : Group bs → Payload 3 bs
  | fixed32 {bs : Bytes} : bs.length = 4 → Payload 5 bs
/-- Fields, and the key that ends the group. -/
inductive Group : Bytes → Prop
  | stop {x : Nat} {key : Bytes} : V64 x key → x % 8 = 4 → Group key
  | field {x : Nat} {key p rest : Bytes} : V64 x key → Payload (x % 8) p → Group rest → Group (key ++ (p ++ rest))
end

/-- Numbers one after the other. -/
inductive Packed : List Nat → Bytes → Prop
  | nil : Packed [] []
  | cons {v : Nat} {vs : List Nat} {bs rest : Bytes} : V64 v bs → Packed vs rest → Packed (v :: vs) (bs ++ rest)

/-- What a field of a UnixFS node says. -/
inductive Item where
  | typ (v : Nat)
  | data (d : Bytes)
  | filesize (v : Nat)
  | sizes (vs : List Nat)
  | hashType (v : Nat)
  | fanout (v : Nat)
  /-- A field that the schema does not have: its key and what follows. -/
  | unknown (x : Nat) (p : Bytes)

/-- The schema: `Type = 1`, `Data = 2`, `filesize = 3`, `blocksizes = 4` (repeated, packed or not), `hashType = 5`, `fanout = 6`. A key is
8 times the field number plus the wire type. -/
inductive ItemBytes : Item → Bytes → Prop
  | typ {key bs : Bytes} {v : Nat} : V64 8 key → V64 v bs → ItemBytes (.typ v) (key ++ bs)
  | data {key len d : Bytes} : V64 18 key → V64 d.length len → ItemBytes (.data d) (key ++ (len ++ d))
  | filesize {key bs : Bytes} {v : Nat} : V64 24 key → V64 v bs → ItemBytes (.filesize v) (key ++ bs)
  | size {key bs : Bytes} {v : Nat} : V64 32 key → V64 v bs → ItemBytes (.sizes [v]) (key ++ bs)
  | packed {key len body : Bytes} {vs : List Nat} : V64 34 key → V64 body.length len → Packed vs body → ItemBytes (.sizes vs) (key ++ (len ++ body))
  | hashType {key bs : Bytes} {v : Nat} : V64 40 key → V64 v bs → ItemBytes (.hashType v) (key ++ bs)
  | fanout {key bs : Bytes} {v : Nat} : V64 48 key → V64 v bs → ItemBytes (.fanout v) (key ++ bs)
  | unknown {key p : Bytes} {x : Nat} : V64 x key → 8 ≤ x → x ∉ [8, 18, 24, 32, 34, 40, 48] → Payload (x % 8) p → ItemBytes (.unknown x p) (key ++ p)

/-- A message is fields one after the other. -/
inductive Items : List Item → Bytes → Prop
  | nil : Items [] []
  | cons {i : Item} {is : List Item} {bs rest : Bytes} : ItemBytes i bs → Items is rest → Items (i :: is) (bs ++ rest)

/-- The value, if the field is of this kind. -/
def Item.typ? : Item → Option Nat | .typ v => some v | _ => none
/-- The value, if the field is of this kind. -/
def Item.data? : Item → Option Bytes | .data d => some d | _ => none
/-- The value, if the field is of this kind. -/
def Item.filesize? : Item → Option Nat | .filesize v => some v | _ => none
/-- The value, if the field is of this kind. -/
def Item.hashType? : Item → Option Nat | .hashType v => some v | _ => none
/-- The value, if the field is of this kind. -/
def Item.fanout? : Item → Option Nat | .fanout v => some v | _ => none
/-- The block sizes in the field. -/
def Item.sizesIn : Item → List Nat | .sizes vs => vs | _ => []
/-- The bytes kept of a field that the schema does not have: its key in the shortest form, and what follows. -/
def Item.kept : Item → Bytes | .unknown x p => leb x ++ p | _ => []

/-- The last value that `g` finds. -/
def lastOf {α : Type} (g : Item → Option α) (is : List Item) : Option α := (is.filterMap g).getLast?

/-- What the fields say together: the last of each kind counts, block sizes are collected, and unknown fields are kept. -/
def meaning (is : List Item) : Pb.Data where
  typ := (lastOf Item.typ? is).map UInt32.ofNat
  data := lastOf Item.data? is
  filesize := (lastOf Item.filesize? is).map UInt64.ofNat
  blocksizes := (is.flatMap Item.sizesIn).map UInt64.ofNat
  hashType := (lastOf Item.hashType? is).map UInt64.ofNat
  fanout := (lastOf Item.fanout? is).map UInt64.ofNat
  unrec := is.flatMap Item.kept

/-- What a field of the metadata message says. -/
inductive MetaItem where
  | mime (d : Bytes)
  | unknown (x : Nat) (p : Bytes)

/-- The MIME type in a field. -/
def MetaItem.mime? : MetaItem → Option Bytes
  | .mime d => some d
  | .unknown _ _ => none

/-- The schema of the metadata message: `MimeType = 1`. -/
inductive MetaBytes : MetaItem → Bytes → Prop
  | mime {key len d : Bytes} : V64 10 key → V64 d.length len → MetaBytes (.mime d) (key ++ (len ++ d))
  | unknown {key p : Bytes} {x : Nat} : V64 x key → 8 ≤ x → x ≠ 10 → Payload (x % 8) p → MetaBytes (.unknown x p) (key ++ p)

/-- Fields of the metadata message one after the other. -/
inductive MetaItems : List MetaItem → Bytes → Prop
  | nil : MetaItems [] []
  | cons {i : MetaItem} {is : List MetaItem} {bs rest : Bytes} : MetaBytes i bs → MetaItems is rest → MetaItems (i :: is) (bs ++ rest)

/-- A field with a number: its key, and the number in the shortest form. -/
def num (key : UInt8) (v : Nat) : Bytes := key :: leb v

/-- A field with bytes: its key, their number, and the bytes. A value that was not given is not written. -/
def str (key : UInt8) (d : Bytes) : Bytes := key :: (leb d.length ++ d)

end Unixfs.Spec
