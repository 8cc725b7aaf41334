# Design: a Lean 4 model of ipfs/go-unixfs

## 1. What is modelled, in general

| Go | Lean |
|---|---|
| `[]byte`, Go `string` | `List UInt8` (`Bytes`); a nil/non-nil distinction is kept where it is observable (`Option Bytes`) |
| `uint64` | `UInt64` where wrap-around matters (unixfs sizes), `Nat` where the value is a length |
| `int64` offsets | `Int`/`Nat`; theorems that depend on it carry the hypothesis that the content is shorter than 2^63 bytes |
| `*dag.ProtoNode`, `*dag.RawNode`, other `ipld.Node` | inductive `Node` |
| CID of a node | the node itself: a link embeds the node it addresses. This idealises the hash as injective |
| `ipld.DAGService` | the set of nodes that were added (writers) and the set of nodes that can be fetched (readers); a fetch of an absent node fails |
| `error` | constructor of `Err` inside `Except` |
| mutation through pointers | state passing |
| goroutines + channels | a nondeterministic labelled transition system; theorems quantify over every run |
| non-termination | fuel-indexed functions returning `none` on exhaustion, with theorems that say for which inputs some fuel suffices |

The serialised unixfs payload of a node (`pb.Data`) is *not* abstracted: nodes carry real protobuf
bytes and the model decodes and encodes them with a model of the gogo/protobuf table codec.

Where things are: the model is in the files under `Verif/` that cite /repo on every definition. `Verif/Spec`
holds the small specifications that statements use. Files that define only what proofs need say so in their first
lines. `Verif/Props` holds the property theorems, each with an example that meets its hypotheses.

## 2. Plan per property

* **C01–C05** (`Verif/Pb`, `Verif/FSNode`, `Verif/Props/Format`). Byte-level model of the
  varint/field codec and of the two messages; proof of encode/decode round trips by induction on
  bytes and fields. C05 is violated in the `Size` field: the negation is proved with a witness and
  the MIME part as `_partial`.
* **C06–C15** (`Verif/Import`). Chunk source = list of chunks ending in EOF or an error;
  `DagBuilderHelper` state machine; `balanced.Layout`, `trickle.Layout` function by function.
  Content, sizes, shape, stored set, error and termination by induction on depth and on the
  remaining chunks.
* **C16–C18, C57, C58** (`Verif/Import/Trickle`, `AppendLemmas`, `AppendShape`). `Append`, `appendRec`,
  `appendFillLastChild`. Induction on the recursion into last children; histories of appends by
  induction on `Spec.Made`. C18 is violated; negation with a witness plus a `_partial`.
* **C56** (`Verif/Props/Import`). Every link of an imported DAG is unnamed and records the cumulative
  size of its target (`LinksTrue`), by induction on the built tree.
* **C19–C25, C59, C60** (`Verif/Reader`). `ipld.Walker` (go-ipld-format) state machine and `dagReader` on top;
  refinement to a flat reader by an invariant "bytes still to be delivered = suffix of content".
  The network is an oracle indexed by the fetch number, so every fault schedule is covered. C24 and
  C59 are violated; negations with witnesses plus `_partial` theorems. C60 bounds the walk by a measure.
* **C26–C33, C62–C65** (`Verif/Mod`, `Verif/Spec/ModFile`). `DagModifier` as a state machine over a DAG
  service whose every request may fail. The operations are simulated by a flat file with a write
  buffer (`Mod/Flat`); on top of it, careful call histories refine an ordinary file (`FileStep`,
  `Mod/Hist`), and an invariant of all error-free histories gives sizes and storage (`Mod/Any`). C62 for
  files of any shape: an invariant that every node reachable from the current root is stored or was there
  before (`Mod/Stored`).
  C26–C32 and C63–C65 are violated; negations with witnesses plus `_partial` theorems for the rest.
  C63 (`Mod/Retry`): a `Sync` that could not fetch a block and stored nothing leaves the modifier as it was.
* **C34, C54** (`Verif/Hamt/HashBits`). Bit arithmetic on bytes, induction on widths.
* **C35–C38, C43–C45, C55, C61** (`Verif/Hamt`). `childer` (bitfield + parallel slices), `Shard` with
  loaded/unloaded children, serialisation. Refinement to a finite map; canonical form by
  uniqueness of the trie for a given entry set. C44 is violated for the empty name.
* **C39–C42** (`Verif/Hamt/Walk`). The dispatcher/worker protocol of `parallelShardWalk` as an LTS;
  inductive invariant for completeness, measure for termination. C42 is violated: witness run.
* **C46–C50, C66** (`Verif/Dir`). `BasicDirectory`, `HAMTDirectory`, `DynamicDirectory`. A representation
  invariant `DInv` ties both forms to one map of names; each call is a step on that map (`DStep`), also
  when it switches between the forms, for all thresholds, failures and schedules of the enumeration
  that measures the size. C48 and C50 are violated in part; negations with witnesses plus `_partial`.
* **C51, C67** (`Verif/File/Resolve`). `ResolveUnixfsOnce`, composed with the directory invariant, and
  for malformed nodes with `Verif/File/Robust`. C67 is violated for the empty path.
* **C52** (`Verif/File/Unixfile`). `NewUnixfsFile`: exact characterisation of the four outcomes.
* **C53, C68** (`Verif/File/IterLemmas`). The producer goroutine of `Entries`, `fileCh` with room for 4,
  `errCh` with room for 1, the `select` of `Next`, and cancellation, as a transition system; an inductive
  invariant (delivered ++ lost ++ held ++ buffered ++ not yet sent = all links) and a decreasing measure.
  C68 is violated: the producer of an iteration that ended with an error blocks for ever.
* **C69** (`Verif/File/Robust`). An invariant of shards in memory that says nothing about bitfield, links
  and names; every read and every removal keeps it and does not panic. Violated for `Set` and `Node`.
  On nodes whose shards all have the root's fanout, enough links for their bitfield and long enough link
  names (`Consistent`), a second invariant (`File/Consist`) shows that no call panics.
* **C70** (`Verif/Import/AppendLemmas`). The invariant of `Append` says which leaves the tree has after each
  step (`Kept`): the old ones, then those of the chunks read.
* **C71, C72** (`Verif/Spec/Edit`, `Verif/Mod/Edit`). A relation between the tree before and after
  (`Edited`, `CutAt`), proved by induction on the tree for `modifyDag` and `dagTruncate`, then for calls
  of the modifier after an arbitrary history.
* **C73–C75** (`Verif/Spec/Crash`, `Verif/Import/Crash`, `Verif/Mod/Crash`, `Verif/Dir/Crash`). The models
  record the nodes given to the DAG service in order. Invariant: every stored node comes after the targets
  of its links, and every link held in memory leads to a node that is stored or was there before; this is
  kept by every function, also where it fails. C73 is about imports that succeed (the model of the importers
  does not return the store of a failed import); its prefixes are all the crash points of such an import.
  C74 is false after a failed extension with zeros, since `AddChild` links a node before it stores it
  (`C74_violated`); the partial theorem excludes this. The nodes stored by a failed `trickle.Append` inside
  of the modifier are not recorded.
* **C76** (`Verif/Dir/Async`). The goroutine of `BasicDirectory.EnumLinksAsync` and its caller as a
  transition system with an inductive invariant and a measure; the HAMT form is the walk of C39–C42.
  Both are composed with the directory invariant `DInv`.
* **C77** (`Verif/Import/Importer`, `Verif/Props/Range`). `BuildDagFromReader` and `BuildTrickleDagFromReader`
  are modelled. C13, C06/C07, C08 and C11 give a stored tree with the right content and sizes; C20 gives the
  reader over a service that has everything, and an agreement lemma (`run_agree`: the walker's path stays
  below the root, so only such blocks are asked for) replaces it by one that has only the stored blocks.
* **C78** (`Verif/Spec/Range`, `Verif/Reader/Local`). `At x s y` says at which byte a block begins. An invariant
  ties every node on the walker's path to its first byte; with it each fetch of a seek or read is of a block of
  the range, so the run equals the run over a service that has everything. Batch prefetching is not modelled
  here: it is assumed that `GetMany` delivers the available blocks of a batch when others are missing.
* **C79** (`Verif/Hamt/Local`). `Need` is the set of unloaded sub-shards that a call for a name may ask for. Every
  call on a name asks only for members, and never makes the set larger for any name (values moved up by a
  removal are no shards, shards made by an insertion are empty), so a run depends on the members only. In a
  serialised trie the members lie on the hash path.
* **C80** (`Verif/Hamt/Share`). On tries: an edit changes no sub-trie off the path of the name; the shard made when two
  names collide has sub-shards on the common path only; a collapse removes only shards on the path. Histories are
  lifted with the same simulation as C35.
* **C81** (blocks of two imports): `Spec/Blocks.lean` defines the block at a place (`blockAt`, following
  link numbers) and `Aligned` (same places, same ranges of chunks, equal blocks for equal ranges). The
  trees behind the two layouts are shown to be *greedy* (`Import/Fill.lean`: every child but the last is
  full), so that their shape is a function of the number of chunks; sub-trees of same-shaped trees are
  compared by induction on the place; `Import/Grow.lean` compares a tree with the tree of a longer list.
  Theorems `C81_{balanced,trickle}_{aligned,one,append}` in `Props/Dedup.lean`.
* **C82** (panics of the modifier): slices and indexes that can be out of range are modelled as the error
  `panic`. The claim is false (`C82_violated`: `Truncate(-1)`; `Seek` before the beginning and then
  `Write`). `C82_no_panic_partial` (`Props/ModPanic.lean`, `Mod/Panic.lean`): after any history of calls
  that reported no error and did not go before the beginning, on a file that `Append` can extend, the next
  call does not panic, and unless it is `Read` or `Seek` its error comes from the DAG service or the
  splitter. `C63_violated_truncate`: the same `Truncate` again, after a refused block, makes the file too long.
* **C83** (whole trees): `Spec/Tree.lean` has trees, what is at a path, `Published` (the ways in which the
  library makes a node from a tree) and the client's loop over `ResolveUnixfsOnce`. `C83_resolve` is by
  induction over the path, with `resolve_dir` (C51) at directories and the fact that links in files are
  unnamed (C56) at files; `C83_open` uses C20, C21, C47 and C52; `C83_storable` is by induction over the tree.
  Paths with an empty component are excluded: the unnamed links of a file would match them.
* **C84** (nodes held by the client): `Mod/Alias.lean` adds to the modifier the addresses of the links of its
  node, the memory, and the nodes that the client holds; `HDM.step_erase` shows that with the memory forgotten
  it is the modifier of `Mod/DagModifier.lean`. The property is false (`C84_violated`: `modifyDag` overwrites
  links in place that `Copy` has shared). Proved instead, for all histories: the data and the number, names and
  sizes of links never change (`C84_surface_partial`), a node changes at most until the next flush
  (`C84_frozen_partial`), only writes change anything (`C84_clean_partial`), and appending changes nothing
  (`C84_append_partial`), by an invariant on addresses and a relation `Ev` between the memories.

* **C85** (`Props/Recut.lean`, helpers `Mod/Recut.lean`, spec `CutAlike`, `File.after` in `Spec/ModFile.lean`): the result of
  `modifyDag` on the tree an import made is that tree with other bytes in leaves of the same lengths (`T.Edit`), so every
  node, with its stored sizes and link sizes, is again what an import writes. An invariant over the history (`Kept`): either the
  file has grown, or it still is such an edited tree. `C85_*_any`: any history without `Truncate` and without error, on files that
  can be extended. `C85_*_inside`: careful calls inside any file (also one-chunk files), naming the edited bytes. `C85_*_restore`:
  same content again means the very same DAG. Uniqueness of the shape comes from C81 (`balanced_pair`, `trickle_pair`).
* **C86** (`Dir/Alias.lean`, spec `Spec/DirAlias.lean`, `Props/DirAlias.lean`): the client of `Spec/Dir.lean` with memory: arrays
  under slices of links, nodes, what the client holds. What calls do to the directory is `exec`; `Inv` says that the memory
  agrees with it, so that `C86_links_shown` and `C86_node_shown` hold. Violated for plain directories: `C86_node_violated`,
  `C86_links_violated` (and `_add`, `_encode`), `C86_loop_violated`, and in general `C86_loop_violated_always`: a loop that removes
  what it is given leaves the second entry of every directory with three entries or more. What holds: `C86_links_partial`
  (calls that neither remove nor replace), `C86_hamt_partial` and `C86_reload_partial` (everything held by the time the
  directory becomes a HAMT or is loaded anew), `C86_given`, `C86_live` (the node shows the present entries), `C86_loop_partial`.
* **C87** (`Reader/Contract.lean`, `Props/Malformed.lean`): every visitor and loop of the reader is shown not to panic on any
  DAG; the one place where the Go code could (`BlockSize(i)` in the loop of `Seek`) is modelled as an index that may panic
  (`skipLoop`). `C87_open`, `C87_no_panic`, `C87_read`, `C87_writeTo`.
* **C88** (spec `Spec/Malformed.lean`, `Import/Calm.lean`, `Mod/Malformed.lean`, `Props/Malformed.lean`): violated, in general by
  `C88_append_violated` and with witnesses by `C88_verify_violated` and `C88_modifier_violated`. What holds: `C88_append_partial`
  for files whose nodes have a link for every size, `C88_verify` for a `LayerRepeat` other than 0, and `C88_truncate_partial`,
  `C88_writeAt_partial` for the first calls on files that keep what their sizes promise (`Backed`). `C88_later_violated`: for second
  calls this is not enough. `C88_shorten_partial` (`Mod/Shrink.lean`): it is enough for any number of calls that shorten and read, when no
  node with links has data (`Bare`); `dagTruncate` keeps both properties and records the new size (`dagTruncate_backed`).
* **C89** (spec `Spec/Encode.lean`, `Import/BlockLen.lean`, `Props/BlockSize.lean`): `encBlock` writes the bytes of a block, for an
  arbitrary function from nodes to CIDs. `C89_balanced`, `C89_trickle` bound every block reachable from the root, by induction
  over the trees of chunks that the layouts build; `C89_balanced_default`, `C89_trickle_default` put in the library's constants.
  `C56_balanced_bytes`, `C56_trickle_bytes` restate C56 with `encBlock`: `Tsize` is the number of bytes of the blocks below.
* **C90** (`Dir/BlockLen.lean`, `Props/DirBlockSize.lean`): `C90_hamt` for every shard of the HAMT form, from the trie invariant;
  `C90_basic` for the basic form, from C48 and with its condition that no caller cancels.
* **C91** (`Import/Overhead.lean`, `Props/Overhead.lean`): the number of inner nodes of the tree forms of C09 and C10 by induction on
  their shape (`Balanced.Left.inner`, `Trickle.LG.inner`), and the length of the encoding of a tree (`T.bytes_le`) from that of C89.
* **C16, C26, C28, C32 on single blocks** (`Import/AppendLeaf.lean`, `Mod/SingleBlock.lean`, `Props/SingleBlock.lean`): the `_violated_always`
  theorems show that the counterexamples are not special: for every single-block file, all written bytes, splitters and
  services, a write across the end that reports no error leaves only the bytes beyond the end.
* **C92** (`Mod/Need.lean`, `Props/EditRange.lean`): by induction over the DAG, the block whose fetch failed when `modifyDag` or
  `dagTruncate` failed is one of those named (`modifyDag_needs`, `dagTruncate_needs`); for `Append` it is on the path of last children
  (`OnSpine`, part of the invariant of C57), and `modifyDag` replaces blocks of that path only by blocks it stored (`modifyDag_spine`).
* **C93** (`Spec/Cost.lean`, `Import/Cost.lean`, `Mod/Cost.lean`, `Props/EditCost.lean`): induction over the DAG with the number of
  leaves in the range (`touched`), where each visited child has at least one; for `Append` a potential, blocks stored plus two per pending
  chunk (`due`), which only the refilling of a last child increases, by one per level.
* **C94** (`Spec/DirBuilder.lean`, `Dir/Builder.lean`, `Props/DirBuilder.lean`): the builder of the directory as a function of its state
  (`builtBy`), unchanged by every call but `SetCidBuilder`; the shards below from the canonical form of C66, in which all have one builder;
  that only the root changes, by unfolding `Node`.
* **C95** (`Spec/Kin.lean`, `Import/Kin.lean`, `Mod/Kin.lean`, `Props/Kin.lean`): `Spec/Kin.lean` says what it means that a block is of the kind of a builder. `Import/Kin.lean` and `Mod/Kin.lean` carry any property of DAGs that holds of nodes with the builder of the root and of raw leaves with this builder through `Append` and through all calls of a modifier. What a failed `Append` leaves behind in the node it was changing is modelled too (`Import/Fail.lean`: the functions of the trickle package with the state that they leave when they fail; `Import/FailLemmas.lean` shows that they agree with the functions of `Import/Trickle.lean` in all results) and is covered (`Import/FailKin.lean`), so the theorems hold for every environment.

* **C96** (`Props/Kin.lean`): the machinery of C95 with a stronger property of DAGs. False in general, because the modifier takes the format of new leaves from the CID version of the root: `C96_violated_v0` (raw leaves below a CIDv0 root get dag-pb leaves added) and `C96_violated_v1` (CIDv1 files with dag-pb leaves get raw leaves added). Proved (`_partial`): CIDv0 files without raw blocks, and files of other versions with raw leaves only.
* **C97** (`Spec/Grown.lean`, `Import/Loose.lean`, `Mod/Loose.lean`, `Props/Grown.lean`): an invariant weaker than the trickle shape (`Loose`, `Root`): sub-graphs in layer j are at most j+1 deep, and all but the last have at least 2^((j-2)/3) leaves. It is preserved by all loops of `Append`, by writing over bytes and by cutting off, and implies the bounds. Histories of modifiers assume `AppendsStored`: the DAG service refuses no block that `Append` hands to it. Then a failed extension leaves the node as it was (`Import/FailSame.lean`, `Mod/Left.lean`).
* **C98** (`Import/Closed`, `Mod/Tidy`, `Props/GrownBlocks`): `Closed T N` says what a property of nodes must fulfil so that `Append` and `Layout` keep it; `Tidy` is the property used (canonical payload of type File or Raw with at most 1 MiB of data, as many block sizes as links, links without names). It is kept by `modifyDag` and `dagTruncate`, so by every history of a modifier (`run_stable`, C97) in which the DAG service takes the blocks that `Append` hands to it (`AppendsStored`). The length of a block follows from the lengths of its fields; the number of links is bounded by C97.
* **C99** (`Spec/Extend.lean`, `Import/FailSame.lean`, `Mod/Left.lean`, `Mod/Extend.lean`, `Props/Extend.lean`): over the model of failing appends (`Import/Fail.lean`). False in general, because `Append` links a new block before it stores it and records sizes only at the end: `C99_violated` (the DAG service refuses one block; the size stays, the bytes grow, and the repeated call adds them again) and `C99_violated_append` (the source fails). Proved (`_partial`): all failed fetches, and a DAG service that refuses new roots but no block that `Append` hands to it. `AllOrNothing` is the specification; the proof follows the bytes of the modifier's node.
* **C100** (`Spec/TrickleShape.lean`, `Import/VerifyShape.lean`, `Props/Verify.lean`): `TrickleDag` is an inductive description of the layout; induction over the DAG shows that the check accepts exactly these (`C100_verify_partial`), with bounds on height and number of children of what is accepted. The last part of the property is false: DAGs with false sizes (`C100_violated`) and with sub-graphs that are not full (`C100_violated_gap`) are accepted. A hash length of -1 in the prefix (any length) is not modelled.
* **C101** (`Props/Shorten.lean`, helpers `Mod/Shorten.lean`, spec `CutShort` in `Spec/ModFile.lean`): `dagTruncate` on the node of an
  abstract tree is the node of the tree cut inside one chunk (`T.Cut`, by induction over the tree), cutting keeps the left-filled
  shape of both layouts, and that shape with the chunks determines the DAG. `C101_trickle_partial`: every cut inside a chunk.
  `C101_balanced_partial`: with raw leaves, where the shorter file needs as many levels. The code violates the rest:
  `C101_violated` (a cut between two chunks leaves an empty leaf), `C101_violated_levels` (superfluous levels stay),
  `C101_violated_leaf` (a protobuf leaf gets the type Raw, where balanced.Layout uses File).
* **C102** (`Props/AppendSame.lean`, helpers `Import/AppendSame.lean`, spec `Spec/AppendSame.lean`): the node under construction is
  the node of a list of abstract trees (`FSN.over`); `Append` extends that list, and where the old and new chunks are as in
  `AddsAlike` the result is filled from the left, which with the chunks determines the DAG. `C102_append_partial`: any number of
  appends, each of nothing, or to a file within the direct links with at most one sub-DAG to add, or to a file that ends in one of
  the first three sub-DAGs (then any amount). The code violates the rest: `C102_violated_direct` (crossing the direct links starts
  with a sub-DAG of the second layer), `C102_violated_last` (the last sub-DAG of a layer is not filled up),
  `C102_violated_second` (sub-DAGs of later layers are too small).
* **C103** (`Props/Lengthen.lean`, helpers `Mod/Lengthen.lean`, spec `Spec/AppendSame.lean`): the in-place part keeps the tree of
  chunks (as in C85), the rest goes through `Append` with the options the modifier took from the root, which the history does not
  change (from C95), and C102's lemma gives a left-filled tree. `C103_write_partial`: options as in `AsModified`, numbers of chunks as
  in `AddsAlike`. Outside: `C103_violated_leaves` (raw leaves with CIDv0: the new leaves are not raw) and `C103_violated_many` (more
  than one sub-DAG is added below a root that has none).
* **C104** (`Props/HamtCost.lean`, helpers `Hamt/Mem.lean`): count the shards in memory. Loading the root gives one; every level of
  a call adds at most one (a fetched sub-shard, or a new one where two names collide), by induction over the bits of the hash that are
  left (as in C79); removals and merges add none. `Node` adds every shard in memory twice (once in `Node`, once in `Link`) and the
  root once. An enumeration loads every shard and is not among the calls.
* **C105** (`Props/DirGrow.lean`, spec `Spec/DirGrow.lean`, helpers `Dir/Grow.lean`): invariant over histories: the estimate of the
  change since loading is at least the true change minus three for every entry replaced or removed (the name of the old link carries
  its index digits). As long as the true size minus the size at loading covers these, `needsToSwitchToBasicDir` returns before the
  enumeration, and the two walks of a call fetch at most a path each (as in C79). For additions of new names the correction is 0.
  *Partial*: without the correction the claim is false (`C105_violated`: storing an entry that is there already, twice).
* **C106** (`Props/Sessions.lean`, spec `Spec/Sessions.lean`): induction over the sessions (`InSessions`), keeping that the file is
  the DAG of a left-filled trickle tree (`Trickle.LG`) of its chunks, all of them small enough for a block. The steps are the
  tree-level lemmas of C85 (`recut_inside`), C101 (`shorten_inside`, `TG.cut`), C102 (`append_same`) and C103 (`lengthen_inside`);
  two left-filled trees with as many leaves have the same shape (`LG.same`). The steps keep the conditions of those properties;
  without them the code does something else (`C101_violated`, `C102_violated`, `C103_violated`).
* **C107** (`Props/Access.lean`, spec `Spec/Access.lean`, helpers `Reader/Access.lean`): the model numbers the requests to the DAG
  service (`tick`). Invariant over histories: the frames of the walker are no deeper than the DAG is high, and the leaves ahead are
  a suffix of the leaves of the file. A walk from leaf to leaf costs at most the height; every leaf but the last uses up `s` bytes of
  the buffer. For `C107_once` the potential is the number of nodes not yet asked for. Preloading of siblings by the walker (a
  dependency) is not modelled: the number counts the blocks that the reader waits for.
* **C108** (`Props/Kept.lean`, spec `Spec/Kept.lean`): end-to-end composition. `Kept S n c grow` lists the ways a version arises and
  what was stored on the way; induction over it with the invariant of C26 (sizes, content, growable, every block stored), C06, C07,
  C11, C16, C17, C32, C58 for the importers and `Append`; reading back is C77's `read_back`.
* **C109** (`Props/KeptTree.lean`, spec `Spec/KeptTree.lean`, lemmas `Dir/Held.lean`, `Dir/Crash.lean`, `Mod/Names.lean`): `KeptTree H S tr nd`
  lists how the tree arose and what the store holds. Induction over the sessions with the map invariant of C47 and the crash
  invariant of C75 relative to what the store held before (it may hold anything else too); a lookup or an enumeration that fetches only
  from a complete set of blocks that the service has is equal to one with a service that has everything.
* **C110** (`Spec/Bytes.lean`, `Pb/Grammar.lean`, `Props/Bytes.lean`): the grammar of the protobuf encoding and of the schema is written as inductive predicates with literal keys, without the model's codec (C03 uses the model's `decVarint` and `skipField`). `Pb/Grammar.lean` proves for each decoding function that it accepts exactly the grammar (groups by a mutual induction on the grammar with the remaining fuel). The constructors are given as literal bytes.
* **C111** (`Spec/Published.lean`, `Hamt/Published.lean`, `Props/Published.lean`): `HamtForm` defines the node as a relation on depth, entries and node, from the hash bits and literal bytes only. Writing: the canonical tries of C36 are shown to serialise to it by induction on the remaining levels, with the bitmap as a sum of powers of two. Reading: a trie is built from a derivation of `HamtForm`, and `NewHamtFromDag` represents it. C36, C37 and C55 say less: C55 gives the format of each shard but not that single entries are never below a sub-shard, and C36 compares histories only with each other.
* **C112** (`Spec/FileForm.lean`, `Import/Form.lean`, `Props/FileForm.lean`): the specification builds the balanced layout bottom-up, by grouping lists of nodes, although the code builds it top-down by depth; the trickle layout is a relation on layer, fullness, chunks and node. Both are over an arbitrary leaf and inner function, and are used with literal bytes (`leafPart`, `innerPart`). The trees of C09 and C71 are folded with these functions; `render` shows that this gives the nodes that the builder writes. Uniqueness: groups are determined by the list; a trickle derivation gives back the tree of `Import/Fill.lean`, whose shape is determined by the number of chunks. Reading: every derivation comes from such a tree, to which C20 and C21 apply.
* **C113** (`Spec/DirPublished.lean`, `Props/DirPublished.lean`): `DirForm` has the two published forms, from literal bytes and `HamtForm` of C111. A published node is shown to satisfy the invariant of C47 when it is loaded, for the plain form by reading the literal data and for the HAMT through the trie that C111 builds from a derivation; the invariant is kept by all calls and gives a published node when `GetNode` is called. C47 starts from plain directories only, and C111 for shards and new directories only.
* **C114** (`Spec/TreePublished.lean`, `Props/TreePublished.lean`): `TreeForm` puts together the forms of C111 to C113 and literal bytes by induction over the tree. C83 says the same of trees that this library has made, where `Published` is defined by its own calls; here the definition does not mention the code. The proofs go through the loaded directory, whose invariant C113 gives, and through the trees that C112 gives for files.
* **C115** (`Spec/OneTree.lean`, `Props/OneTree.lean`): by induction over the tree, from C114: what `NewUnixfsFile` and path resolution give is a function of the node and determines the tree. The second part is C114 for edits, started with the empty directory, which is published under any builder.
* **C116** (`Spec/Settled.lean`, `Props/Settled.lean`): `TreeWith S` is `TreeForm` with all choices fixed by `S`; in plain directories the links are in the order of the encoding. Uniqueness by induction over the tree from the uniqueness of the forms (C111, C112); the converse is C115. That a history may decide between the plain form and the HAMT is C50 and stays a hypothesis.
* **C117** (`Props/TreeSize.lean`): the bytes of blocks are those of `Spec/Encode.lean` (C56, C89). By induction over the tree and, in HAMTs, over the form of the shards, every link records the `Size` of its target, and then `Size` adds up to the bytes by recursion over the node.
* **C118** (`Props/TreeExists.lean`): by induction over the tree. Files exist because the layouts terminate (C13) with a node of the form (C116); a HAMT is built from the deepest level upwards, and its depth ends because names that share a slot at every level have the same hash; plain directories are sorted. Uniqueness is C116. That the code can make sharded directories is C35.
* **C119** (`Spec/Export.lean`, `Props/Export.lean`): the program is an inductive relation over the API (it is not in /repo). By induction over its run: files by C23 (cut reads continue at the next byte), directories by C53 (a finished iteration has delivered every link) and the meaning of published directories (C114). That a run without errors exists with a DAG service that has just the blocks of the tree (going through links asks only for nodes below the directory): every `Next` can be run to its end (C53), and an iteration ends after more calls than links. Cancelling an iteration is allowed in the first part; it ends with an error, or too late to matter.
* **C120** (`Props/Export.lean`): published trees (C114) and kept trees (C109) both have true sizes, contents and directory invariants (`Stands`); the proof of C119 uses no more than that.
* **C121** (`Props/AnyDag.lean`): what a directory enumerates is below its node (`load_dir_in`, `forEach` reaches only descendants), so depth falls at each level; panics are excluded by C52, C53, C87 and the load invariants.
* **C122** (`Reader/Whole.lean`, `Props/Whole.lean`): going backwards along a walk that came to the end: if all that is ahead of the later position can be read, so can all that is ahead of the earlier one (`iterate_back`). So the DAG has content, and C19/C23 say what was delivered. `C122_skips` is the witness for the condition on errors.
* **C123** (`Props/SameCopy.lean`): enumeration without an error does not depend on the oracle (`forEachF_det`), kinds do not (`kind_same`), contents by C122; induction over the first copy. `C123_again` replays a copy on another oracle: loops that ended well end so when all is answered (`links_again`), and files open (`open_served`).
* **C124** (`Props/Listed.lean`): a loop over the children that ends well has given every child to its function (`eachLoop_visits`), and a child does not depend on when it is loaded (`get_slot`); induction along the path of `Find`. `C124_misplaced` is a shard with an entry in the wrong place: listed, not found.
* **C125** (`Props/Asked.lean`): `Loaded s s'` says that `s'` is `s` with some children loaded; all calls that only look keep it (`looks_same`), a lookup in `s'` fails for want of a block or answers as in `s` with all blocks (`find_loaded`), and an enumeration that ends lists `listF` of `s` (`list_loaded`).
* **C126** (`Props/AddAny.lean`): a loaded shard has a valid width and a bitfield of that many bits, whatever its links are (`wide_load`), and setting a name keeps that (`swap_keep`). A successful `swapValue` leaves a shard in which the lookup of that name goes to the new value (`add_found`, `pair_found` for a split), and leaves every other successful lookup as it was (`others_found`). The empty name is excluded: see C44. A change of form is excluded for the other names, because a malformed directory may hold a name twice.
* **C127** (`Props/RemoveAny.lean`, `Props/RemoveOthers.lean`, `Props/RemoveGone.lean`, partial): a removal goes the way of a lookup, so it succeeds with what the lookup finds (`taken_found`) and fails with its error (`missing_kept`), by induction on the levels. That the name is gone and that the others stay is proved for directories that are not sharded, and for sharded ones whose shards are of one width: the others stay (`others_kept`), and the name is held once less (`taken_once`), so it is gone if it was held once. `C127_found_again` (a name held twice) and `C127_other_renamed` (two widths) are malformed directories of which the claims are false, and C47 covers the well formed ones.

## 3. Trusted base

* Lean's kernel and the three standard axioms `propext`, `Classical.choice`, `Quot.sound`.
* The faithfulness of the hand-written model to `/repo`; every definition cites the lines it models.
* Models of dependencies whose source is not in the sandbox, written from their documented
  behaviour: gogo/protobuf 1.3.2 wire codec, go-merkledag 0.5.1 `ProtoNode`/`RawNode`,
  go-ipld-format 0.2.0 `Walker`, go-bitfield, go-ipfs-chunker (as "a list of chunks, then EOF or an error").
* Idealisation of hashing as injective for CIDs; the HAMT hash is an arbitrary function.

* Every theorem of `MANIFEST.json` depends on a subset of these three axioms; `vcheck` prints the list.
  There are no axioms, no `sorry`, no `native_decide` and no `bv_decide` in the project.

## 4. What is not modelled

* Generated accessors and registration in `pb/unixfs.pb.go` (`String`, `Descriptor`, `XXX_*`, JSON), `init`
  functions, trivial getters (`GetDagServ`, `GetCidBuilder`, `Close`), the test helpers in `test/`.
* Unused code: `walkTrie`, `NewShardValue`.
* Memory aliasing, except for the links of a modifier's node (C84) and for what directories hand out (C86). The
  other models return values, so a client that mutates a returned node, or that keeps it over later calls, is
  outside of them.
* Data races between client goroutines: the types are documented as not safe for concurrent use, and the
  model has one client at a time. The goroutines that the library itself starts (`parallelShardWalk`,
  `EnumLinksAsync`, `Entries`, the prefetcher of the reader) are modelled: the first three as transition
  systems, the last by an oracle that decides for every fetch whether it succeeds.
* Time-outs, logging and memory use. A fetch either returns the node, or fails.
* `ipld.DAGService` implementations: adding is an oracle that may refuse, and a node that was added can be
  fetched, or not, as the fetch oracle says.
* Hash functions. A CID is identified with the node it addresses, so two different nodes never have the same
  CID. The hash of names in a HAMT is an arbitrary function to 8 bytes; nothing is assumed about collisions.
* go-bitfield: `SetBytes` with more bytes than the width keeps the last ones.
