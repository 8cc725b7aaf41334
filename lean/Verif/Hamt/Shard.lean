import Verif.Hamt.HashBits
import Verif.Hamt.Bitfield
import Verif.Reader.Walker

/-!
# `/repo/hamt/hamt.go`: the `Shard` data structure, its operations and its serialisation

The parallel walk behind `EnumLinks` is in `Verif.Hamt.Walk`.

Pointers to shards form a tree, so mutation through them is modelled by rebuilding the path: every
operation returns the new shard, also when it fails. The one aliasing effect that is lost is that a
*failing* insertion may have changed the index digits in the `Name` of the link of another value
node (hamt.go:829 run on a shared pointer before a deeper error); that `Name` is never looked at by
this package, which always rebuilds link names from index and key.

Fetches go through the oracle `Net` (see `Verif.Reader.Walker`), `t` counts them. `dserv.Add` goes
through an oracle `ref`: `ref k = true` means that the service refuses when it holds `k` additions;
additions are recorded in a list, latest first.
-/

namespace Unixfs.Hamt

/-- The hash function (`internal.HAMTHashFunction`).
internal/config.go:4, set at hamt/hamt.go:50, called at hamt/util.go:18-26. -/
abbrev Hash := Bytes → Bytes

mutual
/-- hamt.go:60-88 `Shard` with hamt.go:772-780 `childer`: width, bitfield, children, CID builder
(`none` = nil), and for value nodes key and link. `links` and `children` are two parallel slices of
which exactly one is non-nil at each position (hamt.go:777); they are one list of `Slot`s here.
`tableSizeLg2`, `maxpadlen` and `prefixPadStr` are functions of the width. -/
inductive Shard where
  | mk (size : Nat) (bf : Bytes) (slots : List Slot) (builder : Option Builder) (key : Bytes) (val : Option Link)
/-- One position of `links`/`children`: an unloaded link, or a loaded child.
hamt/hamt.go:772-782 and 876-889. -/
inductive Slot where
  | link (l : Link)
  | child (s : Shard)
end

instance : Inhabited Shard := ⟨.mk 0 [] [] none [] none⟩

deriving instance Repr for Slot
deriving instance Repr for Shard

namespace Shard
/-- A field, hamt/hamt.go:60-90 and 772-782. -/
def size : Shard → Nat | mk s _ _ _ _ _ => s
/-- A field, hamt/hamt.go:60-90 and 772-782. -/
def bf : Shard → Bytes | mk _ b _ _ _ _ => b
/-- A field, hamt/hamt.go:60-90 and 772-782. -/
def slots : Shard → List Slot | mk _ _ l _ _ _ => l
/-- A field, hamt/hamt.go:60-90 and 772-782. -/
def builder : Shard → Option Builder | mk _ _ _ b _ _ => b
/-- A field, hamt/hamt.go:60-90 and 772-782. -/
def key : Shard → Bytes | mk _ _ _ _ k _ => k
/-- A field, hamt/hamt.go:60-90 and 772-782. -/
def val : Shard → Option Link | mk _ _ _ _ _ v => v
/-- A field, hamt/hamt.go:60-90 and 772-782. -/
def withSlots : Shard → Bytes → List Slot → Shard | mk s _ _ b k v, bf, l => mk s bf l b k v
/-- A field, hamt/hamt.go:60-90 and 772-782. -/
def withVal : Shard → Link → Shard | mk s bf l b k _, v => mk s bf l b k (some v)
/-- hamt.go:177-179 `SetCidBuilder`. -/
def setCidBuilder : Shard → Option Builder → Shard | mk s bf l _ k v, b => mk s bf l b k v

/-- hamt.go:53-55 `isValueNode`. -/
def isValueNode (s : Shard) : Bool := s.key ≠ [] && s.val.isSome
end Shard

/-- hamt.go:42-47. -/
def HashMurmur3 : UInt64 := 0x22

/-- hamt.go:782 `maximumHamtWidth`. -/
def maximumHamtWidth : Int := 1024

/-- `fmt` `%X`, one digit. Used by `prefixPadStr`, hamt/hamt.go:121-124. -/
def hexDigit (d : Nat) : UInt8 := if d < 10 then UInt8.ofNat (48 + d) else UInt8.ofNat (55 + d)

/-- `fmt` `%X` of a non-negative number; the first argument bounds the number of digits.
Used by `linkNamePrefix`, hamt/hamt.go:762-764. -/
def hexF : Nat → Nat → Bytes
  | 0, _ => []
  | f + 1, n => if n < 16 then [hexDigit n] else hexF f (n / 16) ++ [hexDigit (n % 16)]

/-- `fmt` `%X`, hamt/hamt.go:762-764. -/
def hexU (n : Nat) : Bytes := hexF (n + 1) n

/-- hamt.go:121,125 `maxpadlen`. -/
def maxpadlen (size : Nat) : Nat := (hexU (size - 1)).length

/-- hamt.go:762-764 `linkNamePrefix`: `fmt.Sprintf("%0<maxpadlen>X", idx)`. -/
def linkNamePrefix (size idx : Nat) : Bytes :=
  List.replicate (maxpadlen size - (hexU idx).length) 48 ++ hexU idx

/-- hamt.go:112-137 `makeShard` with hamt.go:784-797 `newChilder` and go-bitfield `NewBitfield`. -/
def makeShard (size : Int) (key : Bytes) (val : Option Link) : Except Err Shard :=
  match logtwo size with
  | .error e => .error e
  | .ok _ =>
    if size > maximumHamtWidth then .error (.hamt "hamt witdh exceed maximum allowed")
    else if size % 8 ≠ 0 then .error (.hamt "Bitfield size must be a multiple of 8")
    else .ok (.mk size.toNat (bfNew size.toNat) [] none key val)

/-- hamt.go:94-96 `NewShard` (and 101-110 `NewShardValue`; `hashFunc` is never read). -/
def newShard (size : Int) : Except Err Shard := makeShard size [] none

/-- `tableSizeLg2`, hamt.go:113,122. The width of an existing shard has passed `Logtwo`. -/
def Shard.lg (s : Shard) : Nat := trailingZeros 64 s.size

/-- Conversion `int(uint64)`. hamt/hamt.go:142-175. -/
def u64ToInt (x : UInt64) : Int := Int.bmod x.toNat (2 ^ 64)

/-- hamt.go:142-174 `NewHamtFromDag` with hamt.go:799-808 `makeChilder`. -/
def newHamtFromDag : Node → Except Err Shard
  | .proto d ls b =>
    match FSNode.fromBytes d with
    | .error e => .error e
    | .ok fs =>
      if fs.type ≠ THAMTShard then .error (.hamt "node was not a dir shard")
      else if fs.format.hashType.getD 0 ≠ HashMurmur3 then .error (.hamt "only murmur3 supported as hash function")
      else
        match makeShard (u64ToInt (fs.format.fanout.getD 0)) [] none with
        | .error e => .error e
        | .ok s => .ok (.mk s.size (bfSetBytes s.bf fs.data) (ls.map Slot.link) (some b) [] none)
  | _ => .error .notProtobuf

/-- The CID builder that `ProtoNode.SetCidBuilder` installs (nil = CIDv0). hamt/hamt.go:189. -/
def pbBuilder (b : Option Builder) : Builder := (b.getD .v0).withCodec 0x70

/-- hamt/hamt.go:187-218, 823-838: a link under another name. -/
def Link.rename (l : Link) (name : Bytes) : Link := .mk name l.tsize l.target

mutual
/-- hamt.go:187-235 `Node`. Returns the additions to the DAG service as well. -/
def Shard.toNode (ref : Nat → Bool) : Shard → List Node → Except Err Node × List Node
  | .mk size bf slots b _ _, st =>
    match linksOf ref size slots ((List.range size).filter (fun i => bfBit bf i)) st with
    | (.error e, st') => (.error e, st')
    | (.ok ls, st') =>
      match hamtShardData (bfBytes bf) (UInt64.ofNat size) HashMurmur3 with
      | .error e => (.error e, st')
      | .ok d =>
        if ref st'.length then (.error .addFailed, st')
        else (.ok (.proto d ls (pbBuilder b)), .proto d ls (pbBuilder b) :: st')
/-- hamt.go:191-220: the loop over the set bits (the list of indices) and the children. Running out
of children is an index panic. `Link` (hamt.go:347-363) is inlined. -/
def linksOf (ref : Nat → Bool) (size : Nat) : List Slot → List Nat → List Node → Except Err (List Link) × List Node
  | _, [], st => (.ok [], st)
  | [], _ :: _, st => (.error .panic, st)
  | .child s :: ss, i :: is, st =>
    match (if s.isValueNode then (match s.val with | some l => (.ok l, st) | none => (.error .panic, st))
           else match Shard.toNode ref s st with
            | (.error e, st') => (.error e, st')
            | (.ok nd, st') =>
              if ref st'.length then (.error .addFailed, st') else (.ok (makeLink [] nd), nd :: st') : Except Err Link × List Node) with
    | (.error e, st') => (.error e, st')
    | (.ok l, st') =>
      match linksOf ref size ss is st' with
      | (.error e, st'') => (.error e, st'')
      | (.ok ls, st'') => (.ok (Link.rename l (linkNamePrefix size i ++ s.key) :: ls), st'')
  | .link l :: ss, i :: is, st =>
    if l.name.length < maxpadlen size then (.error .panic, st)
    else
      match linksOf ref size ss is st with
      | (.error e, st'') => (.error e, st'')
      | (.ok ls, st'') => (.ok (Link.rename l (linkNamePrefix size i ++ l.name.drop (maxpadlen size)) :: ls), st'')
end

/-- hamt.go:328-334 `linkType`. -/
inductive LinkType where
  | shardLink
  | shardValueLink
deriving DecidableEq, Repr

/-- hamt.go:336-344 `childLinkType`. -/
def childLinkType (size : Nat) (l : Link) : Except Err LinkType :=
  if l.name.length < maxpadlen size then .error (.hamt "invalid link name")
  else if l.name.length = maxpadlen size then .ok .shardLink
  else .ok .shardValueLink

/-- hamt.go:237-248 `makeShardValue`. -/
def makeShardValue (size : Nat) (l : Link) : Except Err Shard :=
  makeShard size (l.name.drop (maxpadlen size)) (some l)

namespace Shard

/-- hamt.go:811-813 `sliceIndex`. -/
def sliceIndex (s : Shard) (idx : Nat) : Nat := bfOnesBefore s.bf idx

/-- hamt.go:845-848 `set`. -/
def setChild (s : Shard) (c : Shard) (i : Nat) : Shard := s.withSlots s.bf (s.slots.set i (.child c))

/-- hamt.go:850-853 `setLink`. -/
def setLink (s : Shard) (l : Link) (i : Nat) : Shard := s.withSlots s.bf (s.slots.set i (.link l))

/-- hamt.go:823-843 `insert`; `none` is a nil link. Slicing past the end is a panic. -/
def insert (s : Shard) (key : Bytes) (lnk : Option Link) (idx : Nat) : Except Err Shard :=
  match lnk with
  | none => .error .notExist
  | some l =>
    match makeShard 256 key (some (Link.rename l (linkNamePrefix s.size idx ++ key))) with
    | .error e => .error e
    | .ok sd =>
      let i := s.sliceIndex idx
      if i > s.slots.length then .error .panic
      else .ok (s.withSlots (bfSet s.bf idx) (s.slots.take i ++ .child sd :: s.slots.drop i))

/-- hamt.go:855-871 `rm` with `check` (946-956). -/
def rm (s : Shard) (idx : Nat) : Except Err Shard :=
  let i := s.sliceIndex idx
  if i ≥ s.slots.length then .error (.hamt "invalid index passed to operate children")
  else .ok (s.withSlots (bfUnset s.bf idx) (s.slots.eraseIdx i))

/-- hamt.go:876-889 `get` with 891-921 `loadChild`: the child, the shard with the child cached, and
the fetch counter. -/
def get (net : Net) (s : Shard) (i : Nat) (t : Nat) : Except Err (Shard × Shard) × Nat :=
  match s.slots[i]? with
  | none => (.error (.hamt "invalid index passed to operate children"), t)
  | some (.child c) => (.ok (c, s), t)
  | some (.link l) =>
    match childLinkType s.size l with
    | .error e => (.error e, t)
    | .ok .shardLink =>
      if net t l.target then
        match newHamtFromDag l.target with
        | .error e => (.error e, t + 1)
        | .ok c => (.ok (c, s.setChild c i), t + 1)
      else (.error .notFound, t + 1)
    | .ok .shardValueLink =>
      match makeShardValue s.size l with
      | .error e => (.error e, t)
      | .ok c => (.ok (c, s.setChild c i), t)

/-- hamt.go:724-755: after a removal in `child`, which sits at index `idx`, position `i` of `s`. -/
def collapse (s : Shard) (idx i : Nat) (child : Shard) (old : Option Link) : Except Err (Option Link) × Shard :=
  match child.slots with
  | [] =>
    match s.rm idx with
    | .error e => (.error e, s)
    | .ok s' => (.ok old, s')
  | [.child sc] => (.ok old, if sc.isValueNode then s.setChild sc i else s)
  | [.link l] =>
    match childLinkType child.size l with
    | .error e => (.error e, s)
    | .ok .shardValueLink => (.ok old, s.setLink l i)
    | .ok .shardLink => (.ok old, s)
  | _ => (.ok old, s)

/-- hamt.go:641-759 `swapValue`; `value = none` removes. The first argument bounds the recursion,
each level of which consumes bits of the hash. -/
def swapValue (H : Hash) (net : Net) : Nat → Shard → Nat → Bytes → Option Link → Nat → Except Err (Option Link) × Shard × Nat
  | 0, s, _, _, _, t => (.error .outOfFuel, s, t)
  | f + 1, s, consumed, key, value, t =>
    match nextBits (H key) consumed s.lg with
    | .error e => (.error e, s, t)
    | .ok (idx, consumed') =>
      if bfBit s.bf idx = false then
        match s.insert key value idx with
        | .error e => (.error e, s, t)
        | .ok s' => (.ok none, s', t)
      else
        let i := s.sliceIndex idx
        match s.get net i t with
        | (.error e, t1) => (.error e, s, t1)
        | (.ok (child, s1), t1) =>
          if child.isValueNode then
            if child.key = key then
              match value with
              | none =>
                match s1.rm idx with
                | .error e => (.error e, s1, t1)
                | .ok s2 => (.ok child.val, s2, t1)
              | some v => (.ok child.val, s1.setChild (child.withVal v) i, t1)
            else
              match value with
              | none => (.error .notExist, s1, t1)
              | some v =>
                match newShard s1.size with
                | .error e => (.error e, s1, t1)
                | .ok c0 =>
                  match swapValue H net f (c0.setCidBuilder s1.builder) consumed' key (some v) t1 with
                  | (.error e, _, t2) => (.error e, s1, t2)
                  | (.ok _, c1, t2) =>
                    match swapValue H net f c1 consumed' child.key child.val t2 with
                    | (.error e, _, t3) => (.error e, s1, t3)
                    | (.ok _, c2, t3) => (.ok none, s1.setChild c2 i, t3)
          else
            match swapValue H net f child consumed' key value t1 with
            | (.error e, child', t2) => (.error e, s1.setChild child' i, t2)
            | (.ok old, child', t2) =>
              match value with
              | some _ => (.ok old, s1.setChild child' i, t2)
              | none =>
                match (s1.setChild child' i).collapse idx i child' old with
                | (r, s2) => (r, s2, t2)

/-- Recursion budget for a key: one level per bit of its hash, and one more. Not in the Go code. -/
def fuel (H : Hash) (key : Bytes) : Nat := (H key).length * 8 + 1

/-- hamt.go:365-387 `getValue`; the value is the link that the callback of `Find` stores. -/
def getValue (H : Hash) (net : Net) : Nat → Shard → Nat → Bytes → Nat → Except Err (Option Link) × Shard × Nat
  | 0, s, _, _, t => (.error .outOfFuel, s, t)
  | f + 1, s, consumed, key, t =>
    match nextBits (H key) consumed s.lg with
    | .error e => (.error e, s, t)
    | .ok (idx, consumed') =>
      if bfBit s.bf idx = false then (.error .notExist, s, t)
      else
        let i := s.sliceIndex idx
        match s.get net i t with
        | (.error e, t1) => (.error e, s, t1)
        | (.ok (child, s1), t1) =>
          if child.isValueNode then
            if child.key = key then (.ok child.val, s1, t1) else (.error .notExist, s1, t1)
          else
            match getValue H net f child consumed' key t1 with
            | (r, child', t2) => (r, s1.setChild child' i, t2)

/-- hamt.go:313-326 `Find`. -/
def find (H : Hash) (net : Net) (s : Shard) (name : Bytes) (t : Nat) : Except Err (Option Link) × Shard × Nat :=
  getValue H net (fuel H name) s 0 name t

/-- hamt.go:259-274 `SetLink`. -/
def setLinkOp (H : Hash) (net : Net) (s : Shard) (name : Bytes) (l : Link) (t : Nat) : Except Err Unit × Shard × Nat :=
  match swapValue H net (fuel H name) s 0 name (some (Link.rename l (linkNamePrefix s.size 0 ++ name))) t with
  | (.ok _, s', t') => (.ok (), s', t')
  | (.error e, s', t') => (.error e, s', t')

/-- hamt.go:279-296 `Swap`: adds the node to the DAG service, then sets. -/
def swap (H : Hash) (net : Net) (ref : Nat → Bool) (s : Shard) (name : Bytes) (nd : Node) (t : Nat) (st : List Node) :
    Except Err (Option Link) × Shard × Nat × List Node :=
  if ref st.length then (.error .addFailed, s, t, st)
  else
    match swapValue H net (fuel H name) s 0 name (some (makeLink (linkNamePrefix s.size 0 ++ name) nd)) t with
    | (r, s', t') => (r, s', t', nd :: st)

/-- hamt.go:307-310 `Take` (`Remove`, 300-303, drops the link). -/
def take (H : Hash) (net : Net) (s : Shard) (name : Bytes) (t : Nat) : Except Err (Option Link) × Shard × Nat :=
  swapValue H net (fuel H name) s 0 name none t

end Shard

/-- State of a sequential walk: what the callback was given so far, and the fetch counter.
hamt/hamt.go:931-944. -/
structure EachSt where
  out : List Link
  t : Nat

/-- hamt.go:931-944 `each`, over the positions in the list; `step` is the callback, which may change
the child it is given (a pointer). -/
def eachLoop (net : Net) (step : Shard → EachSt → Option Err × Shard × EachSt) : List Nat → Shard → EachSt → Option Err × Shard × EachSt
  | [], s, st => (none, s, st)
  | i :: is, s, st =>
    match s.get net i st.t with
    | (.error e, t1) => (some e, s, { st with t := t1 })
    | (.ok (c, s1), t1) =>
      match step c { st with t := t1 } with
      | (some e, c', st') => (some e, s1.setChild c' i, st')
      | (none, c', st') => eachLoop net step is (s1.setChild c' i) st'

/-- hamt.go:405-412 `ForEachLink` with 624-637 `walkTrie`. `cb k = true` means that the `k`-th call of
the user's function returns an error. The first argument bounds the depth. -/
def forEachF (net : Net) (cb : Nat → Bool) : Nat → Shard → EachSt → Option Err × Shard × EachSt
  | 0, s, st => (some .outOfFuel, s, st)
  | f + 1, s, st =>
    eachLoop net (fun c st =>
      if c.isValueNode then
        let l := Link.rename (c.val.getD (.mk [] 0 default)) c.key
        (if cb st.out.length then some (.hamt "callback") else none, c.withVal l, { st with out := st.out ++ [l] })
      else forEachF net cb f c st) (List.range s.slots.length) s st

mutual
/-- Nesting depth of a DAG, of a shard with its loaded and unloaded children.
Used in specifications and proofs only. -/
def nodeDepth : Node → Nat
  | .proto _ ls _ => 1 + linksDepth ls
  | .raw .. => 1
  | .other .. => 1
/-- Used in specifications and proofs only. -/
def linksDepth : List Link → Nat
  | [] => 0
  | .mk _ _ n :: ls => max (nodeDepth n) (linksDepth ls)
end

mutual
/-- Used in specifications and proofs only. -/
def Shard.depth : Shard → Nat
  | .mk _ _ slots _ _ _ => 1 + slotsDepth slots
/-- Used in specifications and proofs only. -/
def slotsDepth : List Slot → Nat
  | [] => 0
  | .child s :: ss => max (Shard.depth s) (slotsDepth ss)
  | .link l :: ss => max (nodeDepth l.target) (slotsDepth ss)
end

/-- hamt/hamt.go:405-411 `ForEachLink`, with a bound on the depth. -/
def Shard.forEachLink (net : Net) (cb : Nat → Bool) (s : Shard) (t : Nat) : Option Err × Shard × EachSt :=
  forEachF net cb s.depth s { out := [], t := t }

end Unixfs.Hamt
