import Verif.Hamt.Shard

/-!
# Specification: a HAMT directory is a finite map

`Op`, `Res` and `exec` are the client's view of the API of `/repo/hamt/hamt.go`: a call, its result,
and the state after it. `SpecStep` is what the call must do to a plain map from names to values. No
bitfields, sub-shards, hashes or lazy loading occur in it, except that two names whose hashes agree
in all usable bits (`Collide`) cannot be stored together.
-/

namespace Unixfs.Hamt

/-- A link without its name: cumulative size and target. -/
abbrev LinkVal := UInt64 × Node

/-- A call on a `Shard`. `cb k` says whether the `k`-th call of the client's function fails. -/
inductive Op where
  | set (name : Bytes) (nd : Node)
  | setLink (name : Bytes) (l : Link)
  | swap (name : Bytes) (nd : Node)
  | remove (name : Bytes)
  | take (name : Bytes)
  | find (name : Bytes)
  | forEach (cb : Nat → Bool)
  | node
  /-- `Node` followed by `NewHamtFromDag` of its result; the client continues with the new `Shard`. -/
  | reload
  | setCidBuilder (b : Option Builder)

/-- The name that a call stores or removes. -/
def Op.target : Op → Option Bytes
  | .set k _ => some k | .setLink k _ => some k | .swap k _ => some k | .remove k => some k | .take k => some k | _ => none

/-- The result of a call. -/
inductive Res where
  | done
  /-- `Swap`, `Take`: the link that was there before. -/
  | prev (v : Option LinkVal)
  /-- `Find`: the link that is there. -/
  | val (v : LinkVal)
  /-- `ForEachLink`: the links given to the client, and the error. -/
  | list (ls : List Link) (e : Option Err)
  | node (nd : Node)
  | fail (e : Err)
deriving DecidableEq

/-- A shard, the number of fetches done so far, and what was added to the DAG service. -/
structure Cfg where
  shard : Shard
  t : Nat
  st : List Node

/-- Size and target of a link. -/
def linkVal (l : Link) : LinkVal := (l.tsize, l.target)

/-- One call. `Set` is hamt.go:251-254, `Remove` 300-303. -/
def exec (H : Hash) (net : Net) (ref : Nat → Bool) : Op → Cfg → Res × Cfg
  | .set name nd, c =>
    match c.shard.swap H net ref name nd c.t c.st with
    | (.ok _, s, t, st) => (.done, ⟨s, t, st⟩)
    | (.error e, s, t, st) => (.fail e, ⟨s, t, st⟩)
  | .setLink name l, c =>
    match c.shard.setLinkOp H net name l c.t with
    | (.ok _, s, t) => (.done, ⟨s, t, c.st⟩)
    | (.error e, s, t) => (.fail e, ⟨s, t, c.st⟩)
  | .swap name nd, c =>
    match c.shard.swap H net ref name nd c.t c.st with
    | (.ok old, s, t, st) => (.prev (old.map linkVal), ⟨s, t, st⟩)
    | (.error e, s, t, st) => (.fail e, ⟨s, t, st⟩)
  | .remove name, c =>
    match c.shard.take H net name c.t with
    | (.ok _, s, t) => (.done, ⟨s, t, c.st⟩)
    | (.error e, s, t) => (.fail e, ⟨s, t, c.st⟩)
  | .take name, c =>
    match c.shard.take H net name c.t with
    | (.ok old, s, t) => (.prev (old.map linkVal), ⟨s, t, c.st⟩)
    | (.error e, s, t) => (.fail e, ⟨s, t, c.st⟩)
  | .find name, c =>
    match c.shard.find H net name c.t with
    | (.ok (some l), s, t) => (.val (linkVal l), ⟨s, t, c.st⟩)
    | (.ok none, s, t) => (.prev none, ⟨s, t, c.st⟩)
    | (.error e, s, t) => (.fail e, ⟨s, t, c.st⟩)
  | .forEach cb, c =>
    match c.shard.forEachLink net cb c.t with
    | (e, s, es) => (.list es.out e, ⟨s, es.t, c.st⟩)
  | .node, c =>
    match c.shard.toNode ref c.st with
    | (.ok nd, st) => (.node nd, ⟨c.shard, c.t, st⟩)
    | (.error e, st) => (.fail e, ⟨c.shard, c.t, st⟩)
  | .reload, c =>
    match c.shard.toNode ref c.st with
    | (.error e, st) => (.fail e, ⟨c.shard, c.t, st⟩)
    | (.ok nd, st) =>
      match newHamtFromDag nd with
      | .error e => (.fail e, ⟨c.shard, c.t, st⟩)
      | .ok s => (.done, ⟨s, c.t, st⟩)
  | .setCidBuilder b, c => (.done, { c with shard := c.shard.setCidBuilder b })

/-- The state after a list of calls. -/
def execAll (H : Hash) (net : Net) (ref : Nat → Bool) : List Op → Cfg → Cfg
  | [], c => c
  | op :: ops, c => execAll H net ref ops (exec H net ref op c).2

/-- The results of a list of calls. -/
def results (H : Hash) (net : Net) (ref : Nat → Bool) : List Op → Cfg → List Res
  | [], _ => []
  | op :: ops, c => (exec H net ref op c).1 :: results H net ref ops (exec H net ref op c).2

/-- A finite map from names to values. -/
abbrev NMap := Bytes → Option LinkVal

def NMap.upd (M : NMap) (name : Bytes) (v : Option LinkVal) : NMap := fun k => if k = name then v else M k

/-- `ls` lists the entries of `M`, each once, with their names. -/
def Lists (M : NMap) (ls : List Link) : Prop :=
  (ls.map Link.name).Nodup ∧ ∀ k v, M k = some v ↔ Link.mk k v.1 v.2 ∈ ls

/-- The two 64-bit hashes agree in all bits that a trie of width `2 ^ lg` can use: all but the last
`64 % lg`. -/
def Collide (H : Hash) (lg : Nat) (k k' : Bytes) : Prop := beNat (H k) / 2 ^ (64 % lg) = beNat (H k') / 2 ^ (64 % lg)

/-- What setting `name` to `v` may do; `r` is the result of a successful call. -/
inductive SetStep (coll : Bytes → Bytes → Prop) (fetch add : Prop) (M : NMap) (name : Bytes) (v : LinkVal) (r : Res) : Res → NMap → Prop
  | ok : SetStep coll fetch add M name v r r (M.upd name (some v))
  /-- Only a new name can fail, and only because of a stored one. -/
  | deep (h : M name = none) (k' : Bytes) (hk : M k' ≠ none) (hne : k' ≠ name) (hc : coll name k') : SetStep coll fetch add M name v r (.fail .tooDeep) M
  | fetch (h : fetch) : SetStep coll fetch add M name v r (.fail .notFound) M
  | add (h : add) : SetStep coll fetch add M name v r (.fail .addFailed) M

/-- What removing `name` may do. -/
inductive DelStep (fetch : Prop) (M : NMap) (name : Bytes) (r : LinkVal → Res) : Res → NMap → Prop
  | ok (v : LinkVal) (h : M name = some v) : DelStep fetch M name r (r v) (M.upd name none)
  | absent (h : M name = none) : DelStep fetch M name r (.fail .notExist) M
  | fetch (h : fetch) : DelStep fetch M name r (.fail .notFound) M

/-- What a call must do to the map: its result and the new map. `fetch`: a fetch failed during the
call; `add`: the DAG service refused an addition during the call. -/
inductive SpecStep (coll : Bytes → Bytes → Prop) (fetch add : Prop) (M : NMap) : Op → Res → NMap → Prop
  | set {name : Bytes} {nd : Node} {r : Res} {M' : NMap} (h : SetStep coll fetch add M name (nd.size, nd) .done r M') :
      SpecStep coll fetch add M (.set name nd) r M'
  | setLink {name : Bytes} {l : Link} {r : Res} {M' : NMap} (h : SetStep coll fetch False M name (linkVal l) .done r M') :
      SpecStep coll fetch add M (.setLink name l) r M'
  | swap {name : Bytes} {nd : Node} {r : Res} {M' : NMap} (h : SetStep coll fetch add M name (nd.size, nd) (.prev (M name)) r M') :
      SpecStep coll fetch add M (.swap name nd) r M'
  | remove {name : Bytes} {r : Res} {M' : NMap} (h : DelStep fetch M name (fun _ => .done) r M') : SpecStep coll fetch add M (.remove name) r M'
  | take {name : Bytes} {r : Res} {M' : NMap} (h : DelStep fetch M name (fun v => .prev (some v)) r M') : SpecStep coll fetch add M (.take name) r M'
  | find {name : Bytes} (v : LinkVal) (h : M name = some v) : SpecStep coll fetch add M (.find name) (.val v) M
  | findAbsent {name : Bytes} (h : M name = none) : SpecStep coll fetch add M (.find name) (.fail .notExist) M
  | findFetch {name : Bytes} (h : fetch) : SpecStep coll fetch add M (.find name) (.fail .notFound) M
  /-- All entries, if neither the client nor the network fails. -/
  | each {cb : Nat → Bool} {ls : List Link} (h : Lists M ls) (hcb : ∀ j < ls.length, cb j = false) :
      SpecStep coll fetch add M (.forEach cb) (.list ls none) M
  /-- The entries up to the one for which the client's function failed. -/
  | eachStop {cb : Nat → Bool} {ls more : List Link} {l : Link} (h : Lists M (ls ++ l :: more)) (hcb : ∀ j < ls.length, cb j = false)
      (hl : cb ls.length = true) : SpecStep coll fetch add M (.forEach cb) (.list (ls ++ [l]) (some (.hamt "callback"))) M
  | eachFetch {cb : Nat → Bool} {ls more : List Link} (h : Lists M (ls ++ more)) (hcb : ∀ j < ls.length, cb j = false) (hf : fetch) :
      SpecStep coll fetch add M (.forEach cb) (.list ls (some .notFound)) M
  /-- What the node is good for is said by C37. -/
  | node {nd : Node} : SpecStep coll fetch add M .node (.node nd) M
  | nodeAdd (h : add) : SpecStep coll fetch add M .node (.fail .addFailed) M
  | reload : SpecStep coll fetch add M .reload .done M
  | reloadAdd (h : add) : SpecStep coll fetch add M .reload (.fail .addFailed) M
  | setCidBuilder {b : Option Builder} : SpecStep coll fetch add M (.setCidBuilder b) .done M

/-- Some fetch in the interval failed. -/
def FetchFailed (net : Net) (t t' : Nat) : Prop := ∃ u x, t ≤ u ∧ u < t' ∧ net u x = false

/-- The service refused an addition when it held between `m` and `n` additions. -/
def AddRefused (ref : Nat → Bool) (m n : Nat) : Prop := ∃ j, m ≤ j ∧ j ≤ n ∧ ref j = true

/-- Every call of the history does to the map what it must; `M'` is the map at the end. -/
inductive SpecRun (H : Hash) (net : Net) (ref : Nat → Bool) (coll : Bytes → Bytes → Prop) : Cfg → NMap → List Op → NMap → Prop
  | nil {c : Cfg} {M : NMap} : SpecRun H net ref coll c M [] M
  | cons {c c' : Cfg} {M M' M'' : NMap} {op : Op} {r : Res} {ops : List Op} (he : exec H net ref op c = (r, c'))
      (hs : SpecStep coll (FetchFailed net c.t c'.t) (AddRefused ref c.st.length c'.st.length) M op r M')
      (ht : SpecRun H net ref coll c' M' ops M'') : SpecRun H net ref coll c M (op :: ops) M''

/-- The value of `k` after a history, given the results of its calls: `cur` at first, then what the
last successful update of `k` set. -/
def lastWrite (k : Bytes) : Option LinkVal → List (Op × Res) → Option LinkVal
  | cur, [] => cur
  | cur, (.set name nd, .done) :: h => lastWrite k (if name = k then some (nd.size, nd) else cur) h
  | cur, (.setLink name l, .done) :: h => lastWrite k (if name = k then some (linkVal l) else cur) h
  | cur, (.swap name nd, .prev _) :: h => lastWrite k (if name = k then some (nd.size, nd) else cur) h
  | cur, (.remove name, .done) :: h => lastWrite k (if name = k then none else cur) h
  | cur, (.take name, .prev _) :: h => lastWrite k (if name = k then none else cur) h
  | cur, _ :: h => lastWrite k cur h

/-- No call of the history stores or removes the empty name. -/
def NoEmptyName (ops : List Op) : Prop := ∀ op ∈ ops, op.target ≠ some []

/-- The shard nodes of a serialised HAMT: the root, and the targets of links whose name consists of
the index digits only. -/
inductive SubShard (digits : Nat) : Node → Node → Prop
  | self (nd : Node) : SubShard digits nd nd
  | link {d : Bytes} {ls : List Link} {b : Builder} {l : Link} {x : Node} (hl : l ∈ ls) (hn : l.name.length = digits)
      (h : SubShard digits l.target x) : SubShard digits (.proto d ls b) x

/-- The value of an upper-case hexadecimal digit. -/
def hexDigitVal (c : UInt8) : Option Nat :=
  if 48 ≤ c ∧ c ≤ 57 then some (c.toNat - 48) else if 65 ≤ c ∧ c ≤ 70 then some (c.toNat - 55) else none

/-- The value of an upper-case hexadecimal number. -/
def hexVal (s : Bytes) : Option Nat := s.foldl (fun a c => a.bind (fun x => (hexDigitVal c).map (16 * x + ·))) (some 0)

/-- The same, with the path of indices from the root. -/
inductive SubShardAt (digits : Nat) : Node → List Nat → Node → Prop
  | self (nd : Node) : SubShardAt digits nd [] nd
  | link {d : Bytes} {ls : List Link} {b : Builder} {l : Link} {i : Nat} {p : List Nat} {x : Node} (hl : l ∈ ls) (hn : l.name.length = digits)
      (hi : hexVal l.name = some i) (h : SubShardAt digits l.target p x) : SubShardAt digits (.proto d ls b) (i :: p) x

/-- The same shard, with some more of its children loaded from the DAG service. -/
inductive Loads : Shard → Shard → Prop
  | refl (s : Shard) : Loads s s
  | trans {s s' s'' : Shard} (h : Loads s s') (h' : Loads s' s'') : Loads s s''
  /-- A link of `s` is loaded. -/
  | here {s s' c : Shard} {i : Nat} {l : Link} {t : Nat} (hl : s.slots[i]? = some (.link l)) (h : s.get (fun _ _ => true) i 0 = (.ok (c, s'), t)) : Loads s s'
  /-- Something is loaded below a loaded child. -/
  | sub {s c c' : Shard} {i : Nat} (hc : s.slots[i]? = some (.child c)) (h : Loads c c') : Loads s (s.setChild c' i)

/-- The DAG service has everything and accepts everything. -/
def goodNet : Net := fun _ _ => true
def goodAdd : Nat → Bool := fun _ => false

/-- Number of hexadecimal digits for the indices below `size`. -/
def digits (size : Nat) : Nat := if size ≤ 16 then 1 else if size ≤ 256 then 2 else 3

/-- The bits of a byte string, most significant first. -/
def bitsOf (b : Bytes) : List Bool := b.flatMap (fun x => (List.range 8).map (fun j => x.toNat / 2 ^ (7 - j) % 2 = 1))

/-- The number written by these bits, most significant first. -/
def bitsVal : List Bool → Nat
  | [] => 0
  | x :: xs => x.toNat * 2 ^ xs.length + bitsVal xs

/-- Cut a list of bits into slices of the given widths; the values of the slices. -/
def slices : List Bool → List Nat → List Nat
  | _, [] => []
  | bs, w :: ws => bitsVal (bs.take w) :: slices (bs.drop w) ws

/-- Successive calls of `Next` with these widths. -/
def nextAll (b : Bytes) : Nat → List Nat → Except Err (List Nat)
  | _, [] => .ok []
  | c, w :: ws =>
    match nextBits b c w with
    | .error e => .error e
    | .ok (v, c') =>
      match nextAll b c' ws with
      | .error e => .error e
      | .ok vs => .ok (v :: vs)

/-- Bytewise lexicographic order, the order of Go strings and of links in an encoded node. -/
def NameLt : Bytes → Bytes → Prop
  | _, [] => False
  | [], _ :: _ => True
  | x :: xs, y :: ys => x < y ∨ x = y ∧ NameLt xs ys

instance : ∀ a b, Decidable (NameLt a b)
  | [], [] => isFalse (fun h => h)
  | _ :: _, [] => isFalse (fun h => h)
  | [], _ :: _ => isTrue trivial
  | x :: xs, y :: ys =>
    have : Decidable (NameLt xs ys) := instDecidableNameLt xs ys
    (inferInstance : Decidable (x < y ∨ x = y ∧ NameLt xs ys))

/-- The indices whose bit is set in a shard's bitfield, read as a big-endian number. -/
def occupied (size : Nat) (data : Bytes) : List Nat := (List.range size).filter (fun i => beNat data / 2 ^ i % 2 = 1)

/-- The format of the serialised shard that is reached from the root along the indices `p`: `d` its
payload, `ls` its links. There is one link for every occupied index, in index order; its name is the
index in hexadecimal, followed, for an entry, by the entry's name, whose hash begins with the slices
`p` and the index. -/
structure Format (H : Hash) (lg : Nat) (p : List Nat) (d : Bytes) (ls : List Link) : Prop where
  data : ∃ data, Pb.Data.unmarshal d = .ok { typ := some THAMTShard, hashType := some HashMurmur3, data := data, fanout := some (UInt64.ofNat (2 ^ lg)) } ∧
    List.Forall₂ (fun i l => hexVal (l.name.take (digits (2 ^ lg))) = some i ∧ digits (2 ^ lg) ≤ l.name.length ∧
      (l.name.drop (digits (2 ^ lg)) ≠ [] → ∀ j ≤ p.length, (p ++ [i])[j]? = some (bitsVal (((bitsOf (H (l.name.drop (digits (2 ^ lg))))).drop (j * lg)).take lg))))
      (occupied (2 ^ lg) (data.getD [])) ls
  order : ls.Pairwise (fun l l' => NameLt l.name l'.name)

/-- Every shard of a serialised HAMT has width `n`, at least as many links as bits in its bitfield, and
link names that can hold the index digits. Nothing is said about the places and names of entries. -/
def Consistent (n : Nat) (nd : Node) : Prop :=
  ∀ d ls b m, SubShard (digits n) nd (.proto d ls b) → Pb.Data.unmarshal d = .ok m → m.typ = some THAMTShard →
    m.fanout.map UInt64.toNat = some n ∧ (occupied n ((m.data.getD []).take (n / 8))).length ≤ ls.length ∧ ∀ l ∈ ls, digits n ≤ l.name.length

/-- The path `p` consists of the first slices of the hash of the name `k`. -/
def HashPath (H : Hash) (lg : Nat) (k : Bytes) (p : List Nat) : Prop := p = slices (bitsOf (H k)) (List.replicate p.length lg)

/-- Calls that concern one name in `K`, or no name. -/
inductive About (K : Bytes → Prop) : Op → Prop
  | set {k : Bytes} {nd : Node} (h : K k) : About K (.set k nd)
  | setLink {k : Bytes} {l : Link} (h : K k) : About K (.setLink k l)
  | swap {k : Bytes} {nd : Node} (h : K k) : About K (.swap k nd)
  | remove {k : Bytes} (h : K k) : About K (.remove k)
  | take {k : Bytes} (h : K k) : About K (.take k)
  | find {k : Bytes} (h : K k) : About K (.find k)
  | node : About K .node
  | setCidBuilder {b : Option Builder} : About K (.setCidBuilder b)

end Unixfs.Hamt
