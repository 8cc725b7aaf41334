import Verif.Spec.Hamt
import Verif.Spec.Bytes

/-!
# The published form of a sharded directory (C111)

The HAMT of the UnixFS specification (https://specs.ipfs.tech/unixfs/#hamt-directories), as a function of the entries. The definitions in
this file belong to statements; they model no code.
-/

namespace Unixfs.Spec
open Unixfs Unixfs.Hamt

/-- An entry: name, cumulative size and node. -/
abbrev Entry := Bytes × UInt64 × Node

/-- The slot of a name in a shard at depth `d`: bits `d * lg` to `(d + 1) * lg` of its hash, most significant first. -/
def slotOf (H : Hash) (lg d : Nat) (name : Bytes) : Nat := bitsVal (((bitsOf (H name)).drop (d * lg)).take lg)

/-- The entries of slot `i`. -/
def inSlot (H : Hash) (lg d : Nat) (es : List Entry) (i : Nat) : List Entry := es.filter (fun e => slotOf H lg d e.1 = i)

/-- The digits `0123456789ABCDEF`. -/
def hexDigits : List UInt8 := [48, 49, 50, 51, 52, 53, 54, 55, 56, 57, 65, 66, 67, 68, 69, 70]

/-- The number of a slot in hexadecimal, with as many digits as the largest slot number needs. -/
def slotName (lg i : Nat) : Bytes := (List.range (if lg ≤ 4 then 1 else if lg ≤ 8 then 2 else 3)).reverse.map (fun j => hexDigits.getD (i / 16 ^ j % 16) 0)

/-- A number as bytes, most significant first, without leading zeros. -/
def bigEndian (n : Nat) : Bytes := if n = 0 then [] else bigEndian (n / 256) ++ [UInt8.ofNat (n % 256)]

/-- The bitmap of a shard: bit `i` is set when slot `i` has entries. -/
def bitmap (H : Hash) (lg d : Nat) (es : List Entry) : Nat := ((List.range (2 ^ lg)).map (fun i => if inSlot H lg d es i = [] then 0 else 2 ^ i)).sum

/-- The UnixFS data of a shard: type 5, the bitmap (absent when it is 0), hash function 0x22 and the number of slots. -/
def shardBytes (H : Hash) (lg d : Nat) (es : List Entry) : Bytes :=
  [0x08, 5] ++ (if bitmap H lg d es = 0 then [] else str 0x12 (bigEndian (bitmap H lg d es))) ++ num 0x28 0x22 ++ num 0x30 (2 ^ lg)

/-- `HamtForm H lg b d es nd`: `nd` is the shard at depth `d` with `2 ^ lg` slots for the entries `es`. It has a link for each slot with
entries, in order. The name of the link is the number of the slot, followed by the name of the entry if there is only one, and the link leads to that
entry; if there are several, it leads to a shard with them at the next depth. A hash has 64 bits. -/
inductive HamtForm (H : Hash) (lg : Nat) (b : Builder) : Nat → List Entry → Node → Prop
  | mk {d : Nat} {es : List Entry} (sub : Nat → Node) (hd : (d + 1) * lg ≤ 64)
      (hsub : ∀ i < 2 ^ lg, 2 ≤ (inSlot H lg d es i).length → HamtForm H lg b (d + 1) (inSlot H lg d es i) (sub i)) :
      HamtForm H lg b d es (.proto (shardBytes H lg d es)
        (((List.range (2 ^ lg)).filter (fun i => inSlot H lg d es i ≠ [])).map (fun i =>
          match inSlot H lg d es i with
          | [(name, size, node)] => .mk (slotName lg i ++ name) size node
          | _ => .mk (slotName lg i) (sub i).size (sub i))) b)

/-- `Find` gives the entries `es` of a shard, whose names are different, and no others. -/
structure Finds (H : Hash) (c : Cfg) (es : List Entry) : Prop where
  nodup : (es.map Prod.fst).Nodup
  found : ∀ e ∈ es, (exec H goodNet goodAdd (.find e.1) c).1 = .val e.2
  absent : ∀ name ∉ es.map Prod.fst, (exec H goodNet goodAdd (.find name) c).1 = .fail .notExist

end Unixfs.Spec
