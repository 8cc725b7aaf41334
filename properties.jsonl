{"id": "C01", "title": "FSNode survives serialisation", "statement": "For every FSNode n obtained through the API, FSNodeFromBytes(n.GetBytes()) succeeds and returns a node with the same Type, Data, FileSize, block sizes, HashType and Fanout.", "quantifier": "every node type, every data byte string, every list of 64-bit block sizes, every value of the optional fields", "why_tests_cant": "The claim ranges over all byte strings and all 64-bit sizes including every varint length boundary; tests try a handful.", "anchors": ["unixfs.go:FSNodeFromBytes", "unixfs.go:(*FSNode).GetBytes", "pb/unixfs.pb.go:Data"]}
{"id": "C02", "title": "Content constructors are inverted by the readers", "statement": "For every payload d: UnwrapData(FilePBData(d,_)) = d, UnwrapData(WrapData(d)) = d, SymlinkData targets are returned unchanged, and DataSize of FilePBData(d,total) is total, of WrapData(d) is len(d), of SymlinkData(s) is len(s), of FolderPBData() is an error/0 as documented.", "quantifier": "every payload and every total size", "why_tests_cant": "All byte strings and sizes.", "anchors": ["unixfs.go:FilePBData", "unixfs.go:WrapData", "unixfs.go:SymlinkData", "unixfs.go:UnwrapData", "unixfs.go:DataSize"]}
{"id": "C03", "title": "Decoding is strict about Type and lossless about the rest", "statement": "FSNodeFromBytes never accepts a message without the required Type field; and re-encoding any accepted message then decoding it gives back the same message, including fields this version does not know.", "quantifier": "every byte string", "why_tests_cant": "Ranges over all byte strings, i.e. hostile input.", "anchors": ["unixfs.go:FSNodeFromBytes", "pb/unixfs.pb.go"]}
{"id": "C04", "title": "FSNode size accounting", "statement": "After any sequence of SetData, AddBlockSize, RemoveBlockSize, RemoveAllBlockSizes on a node from NewFSNode, FileSize() equals len(Data()) plus the sum of the recorded block sizes (modulo 2^64, exactly when the sum fits).", "quantifier": "every history of mutations with every argument", "why_tests_cant": "Histories are unbounded; tests check two or three operations.", "anchors": ["unixfs.go:(*FSNode).AddBlockSize", "unixfs.go:(*FSNode).RemoveBlockSize", "unixfs.go:(*FSNode).RemoveAllBlockSizes", "unixfs.go:(*FSNode).SetData", "unixfs.go:(*FSNode).UpdateFilesize"]}
{"id": "C05", "title": "Metadata round trip", "statement": "MetadataFromBytes(BytesForMetadata(m)) returns m.", "quantifier": "every metadata value (MIME type and size)", "why_tests_cant": "All strings and all sizes; the existing test does not compare the Size field.", "anchors": ["unixfs.go:MetadataFromBytes", "unixfs.go:BytesForMetadata", "unixfs.go:(*Metadata).Bytes"]}
{"id": "C06", "title": "balanced.Layout preserves content", "statement": "For every chunk sequence a splitter yields, reading the DAG returned by balanced.Layout from start to end gives exactly the concatenation of the chunks.", "quantifier": "every chunk sequence, every Maxlinks >= 2, raw or protobuf leaves, every CID builder", "why_tests_cant": "Unbounded number of chunks, depths and fan-outs.", "anchors": ["importer/balanced/builder.go:Layout", "importer/balanced/builder.go:fillNodeRec", "importer/helpers/dagbuilder.go"]}
{"id": "C07", "title": "trickle.Layout preserves content", "statement": "For every chunk sequence, reading the DAG returned by trickle.Layout gives exactly the concatenation of the chunks.", "quantifier": "every chunk sequence, every Maxlinks >= 1, raw or protobuf leaves", "why_tests_cant": "Unbounded input.", "anchors": ["importer/trickle/trickledag.go:Layout", "importer/trickle/trickledag.go:fillTrickleRec"]}
{"id": "C08", "title": "Recorded sizes are true", "statement": "In every DAG built by the importers, every internal file node records one block size per link, the i-th block size is the number of content bytes under the i-th child, and FileSize is the number of content bytes under the node.", "quantifier": "every chunk sequence of total length < 2^64, every node of the DAG", "why_tests_cant": "Quantifies over every node of every DAG.", "anchors": ["importer/helpers/dagbuilder.go:(*FSNodeOverDag).AddChild", "importer/balanced/builder.go", "importer/trickle/trickledag.go"]}
{"id": "C09", "title": "Balanced shape", "statement": "Every DAG from balanced.Layout has all leaves at the same depth, at most Maxlinks children per node, all subtrees left of the last completely full, and the smallest depth able to hold the chunks.", "quantifier": "every number of chunks and every Maxlinks >= 2", "why_tests_cant": "Unbounded numbers of chunks.", "anchors": ["importer/balanced/builder.go:Layout", "importer/balanced/builder.go:fillNodeRec"]}
{"id": "C10", "title": "Trickle shape", "statement": "Every DAG from trickle.Layout is accepted by VerifyTrickleDagStructure with the same Maxlinks and leaf kind.", "quantifier": "every number of chunks and every Maxlinks >= 1", "why_tests_cant": "Tests verify a few sizes only.", "anchors": ["importer/trickle/trickledag.go:Layout", "importer/trickle/trickledag.go:VerifyTrickleDagStructure"]}
{"id": "C11", "title": "Imports are complete in the store", "statement": "When Layout (balanced or trickle) returns successfully, the root and every node reachable from it have been added to the DAG service, so the file can be read from the service alone.", "quantifier": "every chunk sequence, builder parameters", "why_tests_cant": "Every reachable node of every DAG; a missed Add in one shape is invisible to tests on other shapes.", "anchors": ["importer/helpers/dagbuilder.go:(*DagBuilderHelper).Add", "importer/balanced/builder.go", "importer/trickle/trickledag.go"]}
{"id": "C12", "title": "Splitter errors and oversized chunks surface", "statement": "If the splitter reports an error after any number of chunks, or any chunk exceeds the block size limit, Layout returns an error and no root; a DAG is never silently truncated.", "quantifier": "every chunk sequence, every position of the failure, every Maxlinks, both layouts", "why_tests_cant": "The failure can occur at each of unboundedly many positions in the recursion.", "anchors": ["importer/helpers/dagbuilder.go:(*DagBuilderHelper).prepareNext", "importer/helpers/dagbuilder.go:(*DagBuilderHelper).Done", "importer/helpers/dagbuilder.go:(*DagBuilderHelper).NewLeafNode"]}
{"id": "C13", "title": "Layout terminates", "statement": "balanced.Layout terminates for every finite input when Maxlinks >= 2, trickle.Layout when Maxlinks >= 1; for smaller values it does not terminate once there is more than a root can hold.", "quantifier": "every finite chunk sequence and every Maxlinks", "why_tests_cant": "Termination is not observable by tests.", "anchors": ["importer/balanced/builder.go:Layout", "importer/trickle/trickledag.go:fillTrickleRec"]}
{"id": "C14", "title": "Filestore offsets", "statement": "With a filestore path configured and raw leaves, the i-th leaf handed to the store carries the offset equal to the total length of the previous chunks, so the referenced file range holds the leaf's bytes.", "quantifier": "every chunk sequence", "why_tests_cant": "Unbounded sequences; offset drift would appear only for some shapes.", "anchors": ["importer/helpers/dagbuilder.go:(*DagBuilderHelper).ProcessFileStore", "importer/balanced/builder.go"]}
{"id": "C15", "title": "Leaf kind", "statement": "With RawLeaves every leaf is a raw block whose bytes are one chunk; without, every leaf is a protobuf file/raw node wrapping one chunk. Every node uses the configured CID builder (raw codec for raw leaves).", "quantifier": "every chunk sequence and builder", "why_tests_cant": "Every leaf of every DAG.", "anchors": ["importer/helpers/dagbuilder.go:(*DagBuilderHelper).NewLeafNode", "importer/helpers/dagbuilder.go:(*DagBuilderHelper).NewLeafDataNode"]}
{"id": "C16", "title": "trickle.Append preserves content", "statement": "Reading the result of trickle.Append(base, splitter) gives the content of base followed by the chunks.", "quantifier": "every base DAG made by trickle.Layout and any number of Appends, every chunk sequence", "why_tests_cant": "Histories of appends and recursion depths are unbounded.", "anchors": ["importer/trickle/trickledag.go:Append", "importer/trickle/trickledag.go:appendRec", "importer/trickle/trickledag.go:appendFillLastChild"]}
{"id": "C17", "title": "trickle.Append keeps sizes true", "statement": "After Append, recorded sizes are again true at every node (as C08).", "quantifier": "every base and chunk sequence", "why_tests_cant": "As C16.", "anchors": ["importer/trickle/trickledag.go:Append"]}
{"id": "C18", "title": "trickle.Append keeps the trickle shape", "statement": "The result of Append on a valid trickle DAG is accepted by VerifyTrickleDagStructure.", "quantifier": "every base DAG from Layout/Append and every chunk sequence", "why_tests_cant": "Tests append single bytes only; the shape error needs a larger append.", "anchors": ["importer/trickle/trickledag.go:Append", "importer/trickle/trickledag.go:verifyTDagRec"]}
{"id": "C19", "title": "Sequential read returns the file", "statement": "For every well-formed file DAG, any sequence of Reads with any buffer sizes returns consecutive pieces of the content, fills the buffer unless the end is reached, and reports EOF exactly at the end.", "quantifier": "every DAG shape (balanced, trickle, mixed, empty children), every sequence of buffer sizes", "why_tests_cant": "Every DAG and every split of reads.", "anchors": ["io/dagreader.go:(*dagReader).CtxReadFull", "io/dagreader.go:(*dagReader).Read"]}
{"id": "C20", "title": "Any Read/Seek history behaves as a flat byte reader", "statement": "For any history of Read, Seek(Start/Current/End) and WriteTo calls, the reader's results are those of a reader over the flat content; failing Seeks (negative or bad whence) leave the reader unchanged.", "quantifier": "every DAG with true sizes, every history of calls", "why_tests_cant": "Histories are unbounded and seeking interacts with the partially read leaf buffer.", "anchors": ["io/dagreader.go:(*dagReader).Seek", "io/dagreader.go:(*dagReader).CtxReadFull", "io/dagreader.go:(*dagReader).WriteTo"]}
{"id": "C21", "title": "Size is the content length", "statement": "DagReader.Size() equals the number of bytes a complete read returns.", "quantifier": "every DAG with true sizes", "why_tests_cant": "Every DAG.", "anchors": ["io/dagreader.go:NewDagReader", "io/dagreader.go:(*dagReader).Size"]}
{"id": "C22", "title": "WriteTo writes the rest", "statement": "WriteTo from position p writes exactly the content from p to the end and returns its length; afterwards reads are at EOF.", "quantifier": "every DAG, every position reached by any history", "why_tests_cant": "Every DAG and history.", "anchors": ["io/dagreader.go:(*dagReader).WriteTo"]}
{"id": "C23", "title": "A read that fails to fetch a block can be resumed", "statement": "If a block is temporarily missing during Read, the bytes already copied are correct, and retrying after the block appears continues from exactly the byte after them with nothing lost or repeated.", "quantifier": "every DAG, every set of missing blocks per call, every history of reads", "why_tests_cant": "Every crash/failure point.", "anchors": ["io/dagreader.go:(*dagReader).CtxReadFull"]}
{"id": "C24", "title": "A seek that fails does not corrupt the reader", "statement": "If Seek fails because a block is missing, later successful Seek and Read return correct data for the requested offset.", "quantifier": "every DAG, every set of missing blocks, every history", "why_tests_cant": "Failure points are unboundedly many.", "anchors": ["io/dagreader.go:(*dagReader).Seek", "io/dagreader.go:(*dagReader).resetPosition"]}
{"id": "C25", "title": "NewDagReader accepts exactly readable nodes", "statement": "NewDagReader succeeds on raw blocks and file/raw unixfs nodes, follows Metadata to its first child, rejects directories and HAMT shards as directories, symlinks as symlinks, and undecodable nodes with an error; the resulting Size is the node's file size.", "quantifier": "every node", "why_tests_cant": "Every node incl. malformed bytes.", "anchors": ["io/dagreader.go:NewDagReader"]}
{"id": "C26", "title": "Write-at semantics of DagModifier", "statement": "After Seek/WriteAt/Write and Sync, the file content is the previous content with the written bytes overlaid at the write offset.", "quantifier": "every base content, every DAG shape, every offset, every data, every splitter", "why_tests_cant": "Every offset relative to every leaf boundary of every shape.", "anchors": ["mod/dagmodifier.go:(*DagModifier).WriteAt", "mod/dagmodifier.go:(*DagModifier).Sync", "mod/dagmodifier.go:(*DagModifier).modifyDag"]}
{"id": "C27", "title": "DagModifier.Size is what readers see", "statement": "Size() equals the length of the content returned by GetNode once synced, including pending writes.", "quantifier": "every history of writes and truncates", "why_tests_cant": "Histories.", "anchors": ["mod/dagmodifier.go:(*DagModifier).Size"]}
{"id": "C28", "title": "Truncate", "statement": "After Truncate(n) the content is the first n bytes, zero-padded when n exceeds the length, and recorded sizes are true again.", "quantifier": "every DAG, every n", "why_tests_cant": "Every boundary of every shape.", "anchors": ["mod/dagmodifier.go:(*DagModifier).Truncate", "mod/dagmodifier.go:(*DagModifier).dagTruncate"]}
{"id": "C29", "title": "Writing past the end zero-fills", "statement": "Writing at an offset beyond the end leaves zero bytes in the gap and nothing else changed.", "quantifier": "every DAG, every offset beyond the end", "why_tests_cant": "Every gap length.", "anchors": ["mod/dagmodifier.go:(*DagModifier).expandSparse", "mod/dagmodifier.go:zeroReader"]}
{"id": "C30", "title": "Overlapping buffered WriteAt calls behave like writes to a file", "statement": "Any history of WriteAt calls followed by Sync gives the same content as applying the writes in order to a byte array.", "quantifier": "every history of WriteAt calls", "why_tests_cant": "Histories; the buffered-write merge logic has path-dependent cases.", "anchors": ["mod/dagmodifier.go:(*DagModifier).WriteAt"]}
{"id": "C31", "title": "Read then Write writes at the current position", "statement": "As with os.File, after reading k bytes the next Write lands at offset k.", "quantifier": "every history mixing Read, Seek and Write", "why_tests_cant": "Histories.", "anchors": ["mod/dagmodifier.go:(*DagModifier).Read", "mod/dagmodifier.go:(*DagModifier).Write"]}
{"id": "C32", "title": "Appending through the modifier never loses existing data", "statement": "Appending to any file the importers can create keeps the existing content.", "quantifier": "every imported file including single-chunk balanced files", "why_tests_cant": "Needs every importer output shape.", "anchors": ["mod/dagmodifier.go:(*DagModifier).appendData", "importer/trickle/trickledag.go:Append"]}
{"id": "C33", "title": "Sync and GetNode are idempotent", "statement": "Sync with nothing pending changes nothing; GetNode twice returns the same node; Truncate to the current size changes nothing.", "quantifier": "every state of the modifier", "why_tests_cant": "Every state.", "anchors": ["mod/dagmodifier.go:(*DagModifier).Sync", "mod/dagmodifier.go:(*DagModifier).GetNode", "mod/dagmodifier.go:(*DagModifier).Truncate"]}
{"id": "C34", "title": "Hash slicing", "statement": "The successive indices used to place a name are the successive fixed-width big-endian bit slices of its 64-bit hash; asking for more bits than remain is an error.", "quantifier": "every hash, every split into slice widths", "why_tests_cant": "All hashes and all sequences of widths across byte boundaries.", "anchors": ["hamt/util.go:(*hashBits).Next", "hamt/util.go:(*hashBits).next", "hamt/util.go:mkmask"]}
{"id": "C35", "title": "A HAMT is a finite map", "statement": "For any history of Set, SetLink, Remove, Swap, Take, Find on a Shard, lookups return the last value set and not removed, and enumeration returns exactly the current entries.", "quantifier": "every history, every set of non-empty names, every hash function, every valid width", "why_tests_cant": "Histories and hash-collision patterns are unbounded.", "anchors": ["hamt/hamt.go:(*Shard).Set", "hamt/hamt.go:(*Shard).Remove", "hamt/hamt.go:(*Shard).Find", "hamt/hamt.go:(*Shard).swapValue"]}
{"id": "C36", "title": "HAMT shape depends only on the entries", "statement": "Two histories ending with the same entries give the same serialised DAG (same root CID).", "quantifier": "every pair of histories", "why_tests_cant": "Quantifies over pairs of histories; tests try a few.", "anchors": ["hamt/hamt.go:(*Shard).swapValue", "hamt/hamt.go:(*Shard).Node"]}
{"id": "C37", "title": "HAMT serialisation round trip", "statement": "Loading the node produced by Node() with NewHamtFromDag yields a Shard with the same entries, and every sub-shard it refers to has been added to the DAG service.", "quantifier": "every Shard state reachable by any history", "why_tests_cant": "Every reachable shard.", "anchors": ["hamt/hamt.go:(*Shard).Node", "hamt/hamt.go:NewHamtFromDag"]}
{"id": "C38", "title": "Lazy loading is invisible", "statement": "Which children of a shard happen to be loaded in memory never affects results of lookups, updates, enumeration or serialisation.", "quantifier": "every shard and every pattern of loaded/unloaded children", "why_tests_cant": "Exponentially many loading patterns at every depth.", "anchors": ["hamt/hamt.go:(*Shard).getValue", "hamt/hamt.go:(*childer).get", "hamt/hamt.go:(*childer).loadChild"]}
{"id": "C39", "title": "Enumeration is complete under every schedule", "statement": "EnumLinks/EnumLinksAsync/ForEachLink return every entry exactly once, for every interleaving of the parallel walk's workers, when no error or cancellation occurs.", "quantifier": "every shard, every schedule of the dispatcher and 32 workers", "why_tests_cant": "Schedules.", "anchors": ["hamt/hamt.go:parallelShardWalk", "hamt/hamt.go:(*Shard).EnumLinksAsync"]}
{"id": "C40", "title": "Enumeration terminates without deadlock", "statement": "The parallel walk never deadlocks and finishes after a bounded number of steps under every schedule.", "quantifier": "every shard DAG, every schedule, every failure or cancellation point", "why_tests_cant": "Deadlocks depend on rare schedules.", "anchors": ["hamt/hamt.go:parallelShardWalk"]}
{"id": "C41", "title": "A fetch error is reported by enumeration", "statement": "If a sub-shard cannot be fetched or decoded, EnumLinks returns an error rather than a shortened list.", "quantifier": "every shard, every set of missing blocks, every schedule", "why_tests_cant": "Schedules and failure points.", "anchors": ["hamt/hamt.go:parallelShardWalk", "hamt/hamt.go:(*Shard).EnumLinks"]}
{"id": "C42", "title": "Cancellation is reported by enumeration", "statement": "If the context is cancelled before enumeration completes, the caller is told the result is incomplete.", "quantifier": "every cancellation point and schedule", "why_tests_cant": "Cancellation can hit at any step.", "anchors": ["hamt/hamt.go:(*Shard).EnumLinks", "hamt/hamt.go:emitResult", "io/directory.go:(*HAMTDirectory).sizeBelowThreshold"]}
{"id": "C43", "title": "Shard link names", "statement": "Link names in a serialised shard are a fixed-width upper-case hexadecimal index followed by the entry name; stripping it recovers the name, distinct indices give distinct prefixes, and the index order is the name order used by the codec.", "quantifier": "every width, index and name", "why_tests_cant": "All widths and indices.", "anchors": ["hamt/hamt.go:makeShard", "hamt/hamt.go:(*Shard).linkNamePrefix", "hamt/hamt.go:(*Shard).childLinkType"]}
{"id": "C44", "title": "Every accepted name can be found again", "statement": "If Set(name, node) returns no error then Find(name) returns that node.", "quantifier": "every name including the empty string", "why_tests_cant": "All names.", "anchors": ["hamt/hamt.go:(*Shard).Set", "hamt/hamt.go:(*Shard).isValueNode"]}
{"id": "C45", "title": "Too-deep collisions fail cleanly", "statement": "If two names agree on all available hash bits, Set reports an error and the directory still has exactly its previous entries.", "quantifier": "every shard, every colliding pair, every hash function", "why_tests_cant": "Needs full hash collisions; infeasible to test with the real hash.", "anchors": ["hamt/hamt.go:(*Shard).swapValue", "hamt/util.go:(*hashBits).Next"]}
{"id": "C46", "title": "BasicDirectory is a map with a true size estimate", "statement": "For any history of AddChild and RemoveChild, Find/Links reflect the last operation per name and the size estimate equals the sum over entries of name length plus CID length.", "quantifier": "every history, with any names, on a directory loaded from a node with unique names", "why_tests_cant": "Histories.", "anchors": ["io/directory.go:(*BasicDirectory).AddChild", "io/directory.go:(*BasicDirectory).RemoveChild", "io/directory.go:(*BasicDirectory).computeEstimatedSize"]}
{"id": "C47", "title": "DynamicDirectory is a map across representation switches", "statement": "For any history of AddChild/RemoveChild on a Directory, Links and Find give exactly the map semantics regardless of when it switches between basic and HAMT form.", "quantifier": "every history with non-empty names (C44 is about the empty name), every threshold and changes of it, every failure of fetches and additions, every schedule and cancellation of enumerations", "why_tests_cant": "Histories cross the threshold in unboundedly many ways.", "anchors": ["io/directory.go:(*DynamicDirectory).AddChild", "io/directory.go:(*DynamicDirectory).RemoveChild", "io/directory.go:(*BasicDirectory).switchToSharding", "io/directory.go:(*HAMTDirectory).switchToBasic"]}
{"id": "C48", "title": "A basic directory is below the sharding threshold", "statement": "With a positive threshold, after any history starting from a fresh directory, whenever the directory is in basic form its estimated size is below the threshold.", "quantifier": "every history, every threshold > 0, every failure, schedule and cancellation", "why_tests_cant": "Histories.", "anchors": ["io/directory.go:(*BasicDirectory).needsToSwitchToHAMTDir", "io/directory.go:(*HAMTDirectory).needsToSwitchToBasicDir"]}
{"id": "C49", "title": "Threshold decision does not depend on schedule", "statement": "sizeBelowThreshold gives the same answer for every order in which the concurrent enumeration delivers entries.", "quantifier": "every enumeration order, every directory", "why_tests_cant": "Schedules.", "anchors": ["io/directory.go:(*HAMTDirectory).sizeBelowThreshold"]}
{"id": "C50", "title": "Representation depends only on entries", "statement": "A directory whose entries are below the threshold is in basic form regardless of the history (so equal directories have equal CIDs).", "quantifier": "every history", "why_tests_cant": "Pairs of histories.", "anchors": ["io/directory.go:(*DynamicDirectory).AddChild", "io/directory.go:(*DynamicDirectory).RemoveChild", "io/directory.go:(*HAMTDirectory).removeFromSizeChange"]}
{"id": "C51", "title": "Path resolution step", "statement": "ResolveUnixfsOnce(nd, names) with a non-empty path returns the child named names[0] and the rest of the path, for HAMT and plain nodes alike; a missing name is an error; what it returns for a HAMT is an entry of it with that name.", "quantifier": "every node, every non-empty path, every directory history that produced the node", "why_tests_cant": "Every HAMT and plain node.", "anchors": ["io/resolve.go:ResolveUnixfsOnce"]}
{"id": "C52", "title": "NewUnixfsFile chooses the right kind", "statement": "NewUnixfsFile returns a directory for Directory/HAMTShard nodes, a symlink with the right target for Symlink nodes and a file reader otherwise.", "quantifier": "every node", "why_tests_cant": "Every node incl. malformed.", "anchors": ["file/unixfile.go:NewUnixfsFile"]}
{"id": "C53", "title": "Directory iteration is complete under every schedule", "statement": "Iterating a directory with Entries() yields every link exactly once in order, then reports end; an error is reported unless all links were delivered, for every interleaving of producer and consumer.", "quantifier": "every directory, every schedule, every consumer behaviour", "why_tests_cant": "Schedules.", "anchors": ["file/unixfile.go:(*ufsIterator).Next", "file/unixfile.go:(*ufsDirectory).Entries"]}
{"id": "C54", "title": "hashBits width and Logtwo", "statement": "Logtwo accepts exactly the powers of two and returns the exponent; makeShard accepts exactly sizes that the bitfield and hash slicing support.", "quantifier": "every integer", "why_tests_cant": "All integers.", "anchors": ["hamt/util.go:Logtwo", "hamt/hamt.go:makeShard"]}
{"id": "C55", "title": "Bitfield-indexed children", "statement": "In a shard, the position of a child in the child list is the number of occupied indices below its own, so link order in the serialised node equals index order, under any history of insertions and removals.", "quantifier": "every history of child insertions and removals", "why_tests_cant": "Histories.", "anchors": ["hamt/hamt.go:(*childer).sliceIndex", "hamt/hamt.go:(*childer).insert", "hamt/hamt.go:(*childer).rm"]}
{"id": "C56", "title": "Cumulative link sizes", "statement": "In every DAG built by the importers, every link is unnamed and its Tsize is the cumulative size (Node.Size()) of the node it points to.", "quantifier": "all chunk sequences, builder parameters and nodes of the result", "why_tests_cant": "depends on every node of arbitrarily deep DAGs", "anchors": ["importer/helpers/dagbuilder.go: FSNodeOverDag.AddChild", "importer/balanced/builder.go: Layout", "importer/trickle/trickledag.go: Layout"]}
{"id": "C57", "title": "trickle.Append never truncates, reports its errors and terminates", "statement": "If trickle.Append returns successfully, the splitter had reached EOF and every chunk fits the block limit. If it fails, the error is one of: an oversized chunk, the splitter's error, a refused Add, or a block of the base that cannot be fetched, and that cause is present. With none of these it returns a DAG after finitely many steps.", "quantifier": "every truthful appendable base, every chunk sequence, every failure point of splitter, DAG service and block fetches", "why_tests_cant": "Failure points times recursion shapes are unbounded.", "anchors": ["importer/trickle/trickledag.go:Append", "importer/trickle/trickledag.go:appendRec"]}
{"id": "C58", "title": "trickle.Append stores every new node except the root", "statement": "After a successful trickle.Append every node reachable from the result, other than the result itself, is reachable from the base or has been handed to the DAG service.", "quantifier": "every truthful appendable base and every chunk sequence", "why_tests_cant": "Holds for every tree shape reached by any history of appends.", "anchors": ["importer/trickle/trickledag.go:Append", "importer/trickle/trickledag.go:appendFillLastChild"]}
{"id": "C59", "title": "A failing writer in WriteTo does not desynchronise the reader", "statement": "If the writer passed to WriteTo fails after accepting m bytes, those are the next m bytes of the file, WriteTo reports m, the next Read delivers the bytes right after them, and the position reported by Seek(0, SeekCurrent) has advanced by m, so that seeking back to the old position re-reads them.", "quantifier": "every openable file, every writer failing at any call after any number of bytes", "why_tests_cant": "The failure point ranges over every write and every partial length.", "anchors": ["io/dagreader.go:WriteTo", "io/dagreader.go:writeNodeDataBuffer", "io/dagreader.go:Seek"]}
{"id": "C60", "title": "The reader never hangs on a malformed DAG", "statement": "Every Read, Seek and WriteTo of any history on any node that NewDagReader accepts returns after finitely many steps, even if recorded sizes are wrong, inner nodes do not decode or blocks go missing.", "quantifier": "every node accepted by NewDagReader, every history, every network behaviour", "why_tests_cant": "The input is attacker-controlled and of unbounded size.", "anchors": ["io/dagreader.go:CtxReadFull", "io/dagreader.go:Seek", "io/dagreader.go:WriteTo"]}
{"id": "C61", "title": "No needless sub-shards", "statement": "In the DAG that a Shard serialises to after any history, no sub-shard is empty or holds a single entry and nothing else: removals undo the splits that insertions made.", "quantifier": "every history of insertions and removals, every hash function, every width", "why_tests_cant": "Every history and every pattern of shared hash prefixes, at every depth.", "anchors": ["hamt/hamt.go:(*Shard).swapValue", "hamt/hamt.go:(*childer).rm"]}
{"id": "C62", "title": "A modified file is completely stored", "statement": "Every block of the node GetNode returns was added to the DAG service or belongs to the file the modifier was made with.", "quantifier": "every history of Write, WriteAt, Read, Seek, Truncate and Sync calls without an error, every file", "why_tests_cant": "A missing block depends on which leaves a history touches and how the tree grows; histories are unbounded.", "anchors": ["mod/dagmodifier.go:(*DagModifier).Sync", "mod/dagmodifier.go:(*DagModifier).modifyDag", "mod/dagmodifier.go:(*DagModifier).dagTruncate"]}
{"id": "C63", "title": "A failed Sync can be retried", "statement": "If Sync reports an error of the DAG service and a later Sync reports success, the content is the one all the writes ask for.", "quantifier": "every file, every pending write, every pattern of failing requests", "why_tests_cant": "Every point at which a request can fail.", "anchors": ["mod/dagmodifier.go:(*DagModifier).Sync", "mod/dagmodifier.go:(*DagModifier).modifyDag"]}
{"id": "C64", "title": "Seek of a modifier obeys io.Seeker", "statement": "Seek(off, whence) goes to the start, the current position or the end plus off, returns that position, and fails if it is negative.", "quantifier": "every history, offset and whence", "why_tests_cant": "Every offset after every history.", "anchors": ["mod/dagmodifier.go:(*DagModifier).Seek"]}
{"id": "C65", "title": "Read after Truncate sees the truncated file", "statement": "After Truncate(n), Read delivers bytes of the truncated or extended file only.", "quantifier": "every file, every n, every earlier history", "why_tests_cant": "Every history before the Truncate, in particular every state of an open reader.", "anchors": ["mod/dagmodifier.go:(*DagModifier).Truncate", "mod/dagmodifier.go:(*DagModifier).readPrep"]}
{"id": "C66", "title": "Equal directories in equal form have equal nodes", "statement": "If two new directories with the same CID builder hold the same entries after any two histories, and both are basic or both are HAMTs, GetNode returns nodes with the same encoding.", "quantifier": "every pair of histories with non-empty names, all thresholds, failures and schedules in them", "why_tests_cant": "Pairs of unbounded histories, across all switches between the forms.", "anchors": ["io/directory.go:(*DynamicDirectory).AddChild", "io/directory.go:(*DynamicDirectory).RemoveChild", "io/directory.go:(*BasicDirectory).switchToSharding", "io/directory.go:(*HAMTDirectory).switchToBasic", "hamt/hamt.go:(*Shard).Node"]}
{"id": "C67", "title": "Path resolution never panics", "statement": "ResolveUnixfsOnce returns a link or an error for every node and every path, also for malformed nodes; it does not panic.", "quantifier": "every node (well-formed or not), every path (also the empty one)", "why_tests_cant": "Every byte string as node data, every shape of a HAMT.", "anchors": ["io/resolve.go:ResolveUnixfsOnce", "hamt/hamt.go:(*Shard).Find"]}
{"id": "C68", "title": "The goroutine of an iteration ends", "statement": "After a client has stopped iterating over the Entries of a directory, because Next returned false or because it lost interest, the goroutine started by Entries ends.", "quantifier": "every directory, every schedule, every point where the client stops", "why_tests_cant": "All interleavings; a leaked goroutine is not visible in a result.", "anchors": ["file/unixfile.go:(*ufsDirectory).Entries", "file/unixfile.go:(*ufsIterator).Next"]}
{"id": "C69", "title": "A malformed HAMT node causes errors, not panics", "statement": "Loading a Shard from a node and calling its methods returns results or errors but never panics and always ends, whatever the bitfield, the links and the link names of the node and of its sub-shards are.", "quantifier": "every node, every sequence of calls, every fetch failure", "why_tests_cant": "Nodes come from the network: every malformed one, and every sequence of calls.", "anchors": ["hamt/hamt.go:NewHamtFromDag", "hamt/hamt.go:(*Shard).Find", "hamt/hamt.go:(*Shard).ForEachLink", "hamt/hamt.go:(*Shard).Remove", "hamt/hamt.go:(*Shard).Set", "hamt/hamt.go:(*Shard).Node"]}
{"id": "C70", "title": "Appending keeps the existing data blocks", "statement": "Append returns a file in which the data blocks of the file it was given come first, unchanged and in the same order (so that they keep their CIDs and need not be stored or sent again), followed by one new block for each non-empty chunk of the appended data.", "quantifier": "every trickle DAG that Layout or an earlier Append made, all chunk lists, all layout parameters", "why_tests_cant": "Unbounded sequences of appends and depths of the tree; a rewritten block with the same bytes is not visible in the content.", "anchors": ["importer/trickle/trickledag.go:Append", "importer/trickle/trickledag.go:appendRec", "importer/trickle/trickledag.go:appendFillLastChild"]}
{"id": "C71", "title": "Overwriting bytes keeps the other blocks and the shape of the DAG", "statement": "When a write lies inside of the file, the node that DagModifier returns has the same tree as before: the same inner nodes apart from the links to changed children, every leaf without a byte of the written range is the identical block, and every other leaf keeps its kind, its CID builder and its length.", "quantifier": "every file whose recorded sizes are true, every history of earlier calls, every offset and buffer within the file, every DAG service", "why_tests_cant": "All tree shapes and offsets, and all histories; needless rewriting of blocks is not visible in the content.", "anchors": ["mod/dagmodifier.go:(*DagModifier).Write", "mod/dagmodifier.go:(*DagModifier).WriteAt", "mod/dagmodifier.go:(*DagModifier).modifyDag"]}
{"id": "C72", "title": "Truncating keeps the blocks before the cut", "statement": "When Truncate shrinks a file, the data blocks before the one at the cut are the identical blocks, the one at the cut is replaced by one with its first bytes, and the blocks behind it are gone.", "quantifier": "every file whose recorded sizes are true, every history of earlier calls, every smaller size, every DAG service", "why_tests_cant": "All tree shapes and sizes, and all histories.", "anchors": ["mod/dagmodifier.go:(*DagModifier).Truncate", "mod/dagmodifier.go:(*DagModifier).dagTruncate"]}
{"id": "C73", "title": "A crash during an import leaves no dangling references", "statement": "balanced.Layout, trickle.Layout and trickle.Append store blocks in such an order that after every prefix of the blocks, everything below a stored block is stored as well, or (Append) was below the file that is extended.", "quantifier": "every input, every parameter set, every base file, every point at which the process may stop during an import that would succeed", "why_tests_cant": "A test sees the final store; the property is about every intermediate state, for all tree shapes.", "anchors": ["importer/balanced/builder.go:Layout", "importer/trickle/trickledag.go:Layout", "importer/trickle/trickledag.go:Append", "importer/helpers/dagbuilder.go:(*FSNodeOverDag).AddChild", "importer/helpers/dagbuilder.go:(*DagBuilderHelper).Add"]}
{"id": "C74", "title": "A crash while a file is edited leaves no dangling references", "statement": "DagModifier stores blocks in such an order that after every prefix of the blocks, everything below a stored block is stored as well or was part of the original file; this holds although calls may fail.", "quantifier": "every file, every history of calls, every pattern of failures of the DAG service and the splitter, every point at which the process may stop", "why_tests_cant": "Every intermediate state of every history, including failures in the middle of a call.", "anchors": ["mod/dagmodifier.go:(*DagModifier).Sync", "mod/dagmodifier.go:(*DagModifier).modifyDag", "mod/dagmodifier.go:(*DagModifier).dagTruncate", "mod/dagmodifier.go:(*DagModifier).expandSparse", "importer/helpers/dagbuilder.go:(*FSNodeOverDag).AddChild"]}
{"id": "C75", "title": "A crash while a directory is edited leaves no dangling references", "statement": "A Directory, in both of its forms and across the switches between them, stores blocks in such an order that after every prefix of the blocks, everything below a stored block is stored as well, or was below the node the directory was loaded from, or belongs to a child that the client added. All that is below the node GetNode returns is there in this sense.", "quantifier": "every directory node, every history of calls (including reloads), every pattern of failed fetches, refused additions and outcomes of enumerations, every point at which the process may stop", "why_tests_cant": "Every intermediate state of every history; partially loaded shards refer to blocks that only the store has.", "anchors": ["io/directory.go:(*DynamicDirectory).AddChild", "io/directory.go:(*DynamicDirectory).RemoveChild", "io/directory.go:(*HAMTDirectory).GetNode", "hamt/hamt.go:(*Shard).Node", "hamt/hamt.go:(*Shard).Swap"]}
{"id": "C76", "title": "EnumLinksAsync of a directory delivers the directory", "statement": "A caller that reads the channel returned by Directory.EnumLinksAsync to its end, on a directory made by any history of calls and in either of its forms, receives only entries of the directory and none of them twice; if it receives no error and the context was not cancelled, it has received all of them. Errors are received only if something could not be fetched or the context was cancelled. The sending goroutine of a basic directory takes a bounded number of steps, never blocks a reading caller, keeps the order of the node, and ends if the caller reads to the end or cancels the context.", "quantifier": "all histories of a directory, thresholds, both forms, schedules of goroutines, failures of the DAG service, moments of cancellation and of the caller's departure", "why_tests_cant": "The outcome depends on the interleaving of sender, receiver, cancellation and the workers of the walk; a test sees a few schedules.", "anchors": ["io/directory.go: BasicDirectory.EnumLinksAsync", "io/directory.go: HAMTDirectory.EnumLinksAsync", "hamt/hamt.go: Shard.EnumLinksAsync"]}
{"id": "C77", "title": "Import and read back", "statement": "Importing any sequence of chunks within the block size limit (with BuildDagFromReader, BuildTrickleDagFromReader, or either layout with any parameters that have enough links per node) succeeds, and a reader opened on the root, over a DAG service that has nothing but the blocks this import stored, behaves for every history of Read, Seek and WriteTo as a plain byte string reader over the concatenation of the chunks and reports its size. A reader never asks for a block that is not part of its file.", "quantifier": "all chunk sequences, builder parameters, histories of reader calls, and DAG services that deliver the stored blocks", "why_tests_cant": "The claim joins the importers, the stored set and the reader for all sizes and shapes; tests round-trip a few files with a service that has everything.", "anchors": ["importer/importer.go: BuildDagFromReader, BuildTrickleDagFromReader", "importer/balanced/builder.go: Layout", "importer/trickle/trickledag.go: Layout", "io/dagreader.go: NewDagReader"]}
{"id": "C78", "title": "Reading a range needs only the blocks of that range", "statement": "After opening a file and seeking to an offset within it, reads of k bytes in all (in pieces of any positive sizes) succeed with exactly the bytes of the file provided the blocks that have bytes in that range of k bytes, or are empty and lie in it, can be fetched. Every other block of the file may be missing.", "quantifier": "all files of true sizes, offsets, read sizes, and sets of missing blocks outside of the range", "why_tests_cant": "There are exponentially many sets of missing blocks for each shape of file and range; tests use a complete store.", "anchors": ["io/dagreader.go: dagReader.Seek, dagReader.CtxReadFull"]}
{"id": "C79", "title": "A call on one name of a sharded directory touches only the shards on its hash path", "statement": "After a sharded directory has been stored and loaded again, looking up, setting, replacing or removing names asks the DAG service only for sub-shards whose index path is made of the leading slices of the hash of one of these names. Whether any other shard can be fetched changes neither the results, nor the number of fetches, nor the blocks stored, nor the resulting directory. Each call fetches at most one shard per level, 64/log2(width) in all.", "quantifier": "all stored directories (any history, width and hash function), all sequences of calls on single names, and all pairs of networks that agree on the shards on the hash paths", "why_tests_cant": "There are exponentially many sets of missing shards and sequences of calls; tests use a complete store.", "anchors": ["hamt/hamt.go: Shard.Find, Shard.Set, Shard.SetLink, Shard.Swap, Shard.Remove, Shard.Take, childer.get, loadChild"]}
{"id": "C80", "title": "Versions of a sharded directory share the shards off the edited paths", "statement": "Between two results of Node, before and after any further calls, a sub-shard at an index path that is not made of leading slices of the hash of a name stored or removed by these calls is the same block in both versions (or in neither). One call makes at most 64/log2(width) shards that were not there before.", "quantifier": "all directories (any history, width, hash function), all further histories with all failures, all index paths", "why_tests_cant": "Tests compare whole directories; that nothing off the path changes must hold for every trie shape, every split and every collapse.", "anchors": ["hamt/hamt.go: Shard.swapValue, Shard.Node, childer.insert, childer.rm"]}
{"id": "C81", "title": "Imports share blocks wherever their chunks agree", "statement": "Two successful imports with the same parameters (balanced or trickle layout) of equally many chunks give DAGs with blocks at the same places; two blocks at the same place hold the same range of chunks, and they are the same block if the chunks of that range agree. So if one chunk is replaced, only the blocks on one path from the root change; and if chunks are appended, all blocks of the old DAG, except those on one path from its root, are blocks of the new DAG (at the same place for trickle, below the first sub-DAG of the old height for balanced).", "quantifier": "all builder parameters (at least 2 links per node for balanced, 1 for trickle), all pairs of chunk lists of equal length (or one a prefix of the other), all places in the DAGs", "why_tests_cant": "Deduplication and efficient sync of edited or grown files depend on the shape being a function of the number of chunks only, for every number of chunks and every position of a change; tests look at a few sizes and do not compare the blocks of two imports.", "anchors": ["importer/balanced/builder.go:Layout", "importer/balanced/builder.go:fillNodeRec", "importer/trickle/trickledag.go:Layout", "importer/trickle/trickledag.go:fillTrickleRec", "importer/helpers/dagbuilder.go:DagBuilderHelper.NewLeafDataNode"]}
{"id": "C82", "title": "A modifier's calls never panic and fail only for outside reasons", "statement": "A call on a DagModifier (Write, WriteAt, Read, Seek, Truncate, Sync, GetNode, Size, HasChanges) never panics; Write, WriteAt, Truncate, Sync, GetNode, Size and HasChanges succeed unless a block could not be fetched or stored, or the splitter failed or delivered too large a chunk.", "quantifier": "all files (DAGs with true sizes), all histories of calls with all arguments, all DAG services and splitters, all failures of them", "why_tests_cant": "Index and slice expressions in the modifier depend on offsets, recorded sizes, buffer contents and on what earlier calls left behind; a panic takes the whole process down, and no finite set of histories excludes it.", "anchors": ["mod/dagmodifier.go:DagModifier.Sync", "mod/dagmodifier.go:DagModifier.modifyDag", "mod/dagmodifier.go:DagModifier.Truncate", "mod/dagmodifier.go:DagModifier.dagTruncate", "mod/dagmodifier.go:DagModifier.Seek", "mod/dagmodifier.go:DagModifier.WriteAt"]}
{"id": "C83", "title": "Whole trees can be stored, and every path in them leads to what was stored there", "statement": "Take any tree of files, symbolic links and directories with distinct, non-empty names. It can be stored: files with either layout, symbolic links with SymlinkData, directories with AddChild and GetNode. However it was stored (any chunking, parameters, history of directory calls, sharded or not), resolving a path with ResolveUnixfsOnce hop by hop gives a node stored for the subtree at that path, or 'not exist' exactly if there is nothing at the path (paths through files and symbolic links included), or 'not found' if a block could not be fetched; and NewUnixfsFile of the node gives a file that reads as the content, a symbolic link with the target, or a directory that finds and lists exactly the stored entries.", "quantifier": "all trees of any depth and size, all ways to store each of their parts, all paths without empty components, all DAG services and failures of them, all histories of reads of the files", "why_tests_cant": "The guarantee composes the importers, both forms of directories, the resolver and the readers over trees of unbounded depth; a mismatch between any two of them (a form the resolver does not recognise, a file link that is taken for a directory entry) shows only for particular combinations.", "anchors": ["unixfs.go:SymlinkData", "importer/balanced/builder.go:Layout", "importer/trickle/trickledag.go:Layout", "io/directory.go:DynamicDirectory", "io/resolve.go:ResolveUnixfsOnce", "file/unixfile.go:NewUnixfsFile"]}
{"id": "C84", "title": "A modifier does not change the nodes the client holds", "statement": "The node given to NewDagModifier and every node returned by GetNode are snapshots: no later call on the modifier changes what the client sees in them (data, links, and so the content read from them).", "quantifier": "all files, all histories of calls before and after the node was obtained, all DAG services and splitters, all failures of them", "why_tests_cant": "Nodes are copied shallowly, so that the client's nodes and the modifier's share their link objects; whether a shared link is overwritten depends on the whole history of writes, flushes, truncations and failures between taking a node and looking at it.", "anchors": ["mod/dagmodifier.go:NewDagModifier", "mod/dagmodifier.go:DagModifier.GetNode", "mod/dagmodifier.go:DagModifier.modifyDag", "mod/dagmodifier.go:DagModifier.Sync"]}
{"id": "C85", "title": "Overwriting bytes of an imported file gives the same DAG as importing the edited bytes", "statement": "Take a file imported with balanced.Layout or trickle.Layout and edit it through a DagModifier without Truncate, every call succeeding. If the file returned by GetNode is as long as the original, it is, block for block and so CID for CID, the DAG that the same Layout builds from the edited bytes cut at the same chunk boundaries. In particular an edit that is undone gives back the original root. For calls that stay inside the file and are used carefully (see C30, C31) the edited bytes are exactly those of a byte array with a position.", "quantifier": "all import parameters (links per node, raw leaves, CID builder), chunk lists, histories of Write/WriteAt/Seek/Read/Sync/GetNode/Size calls, splitters that only cut, and re-imports", "why_tests_cant": "It relates two independent pieces of code over every tree shape, chunking and edit history; the existing tests compare contents, never DAGs.", "anchors": ["mod/dagmodifier.go: modifyDag, Sync, WriteAt, Write, GetNode", "importer/balanced/builder.go: Layout", "importer/trickle/trickledag.go: Layout", "importer/helpers/dagbuilder.go: NewLeafNode, FSNodeOverDag.Commit"]}
{"id": "C86", "title": "What a directory has handed out stays as it was", "statement": "The node that GetNode has returned and the list that Links has returned are snapshots: no later call on the directory changes them. ForEachLink gives its function the entries that the directory has when the loop begins, each once, whatever the function does to the directory. A node given to NewDirectoryFromNode is never changed. (The code violates this for plain directories: GetNode and Links hand out the live node and its slice of links, and RemoveChild filters that slice in place. A loop that removes every entry it is given never reaches the second one.)", "quantifier": "all histories of calls from NewDirectory or NewDirectoryFromNode, all ways in which slices grow, encodings of held nodes in between, environments (networks, schedules), and functions given to ForEachLink", "why_tests_cant": "Whether a held value changes depends on the history before and after, on spare capacity of slices and on the switches between the two forms; tests look at results when a call returns.", "anchors": ["io/directory.go: BasicDirectory.GetNode, BasicDirectory.Links, BasicDirectory.ForEachLink, BasicDirectory.RemoveChild, BasicDirectory.addLinkChild, NewDirectoryFromNode, DynamicDirectory.AddChild, DynamicDirectory.RemoveChild"]}
{"id": "C87", "title": "Reading a malformed file gives errors, never a panic", "statement": "Whatever the nodes of a DAG contain (sizes without links, links without sizes, children of the wrong type, bytes that are no UnixFS node) and whichever blocks are missing, opening a DagReader and every call on it returns or fails with an error: it does not panic and does not run forever. Read keeps the contract of io.Reader all the while: it never delivers more bytes than asked for, it counts them, and it delivers fewer only together with an error. WriteTo counts the bytes it handed over.", "quantifier": "all nodes, networks, histories of Read/CtxReadFull/Seek/WriteTo calls, buffers and writers", "why_tests_cant": "A peer chooses the blocks; tests read files that the importer wrote.", "anchors": ["io/dagreader.go: NewDagReader, CtxReadFull, WriteTo, Seek, saveNodeData, readNodeDataBuffer", "unixfs.go: FSNodeFromBytes, ReadUnixFSNodeData, FSNode.BlockSize, FSNode.NumChildren"]}
{"id": "C88", "title": "Changing a malformed file gives errors, never a panic", "statement": "trickle.Append, VerifyTrickleDagStructure and the calls of a DagModifier end in success or an error on any DAG that they are given. (The code violates this: Append panics on a root that records more sizes than it has links and than the links per node; VerifyTrickleDagStructure divides by LayerRepeat; writing or truncating inside a recorded size that the data or the links do not back panics.)", "quantifier": "all nodes (that keep what their sizes promise, for the positive part), chunk lists, splitters, services, offsets, sizes and bytes", "why_tests_cant": "A file to be edited may come from anyone; tests edit files that the importer wrote.", "anchors": ["importer/trickle/trickledag.go: Append, appendRec, appendFillLastChild, VerifyTrickleDagStructure", "importer/helpers/dagbuilder.go: FSNodeOverDag.GetChild, FSNodeOverDag.RemoveChild", "mod/dagmodifier.go: modifyDag, dagTruncate, Truncate, WriteAt, Sync"]}
{"id": "C89", "title": "Blocks of an imported file are small and the trickle DAG is shallow", "statement": "Every block that balanced.Layout or trickle.Layout builds, encoded as dag-pb with CIDs of at most w < 100 bytes, is either a leaf block of at most 1 MiB (BlockSizeLimit) plus 14 bytes, or an internal block of at most (number of links) * (w + 28) + 24 bytes. The number of links per node is at most Maxlinks in the balanced layout, and at most Maxlinks + 4k in the trickle layout when there are at most Maxlinks * 5^k chunks, whose paths then have at most k + 1 links. With the default Maxlinks of 174 and 36-byte CIDs no block exceeds 1 048 590 bytes, whatever the file (of less than 2^64 chunks, for the trickle layout).", "quantifier": "every parameter set, every sequence of chunks and every number of them, every function from nodes to CIDs of bounded length, every block reachable from the root", "why_tests_cant": "The bound is on the largest block over all files; a test sees the blocks of one file, and the deep trickle DAGs in which a node could grow take terabytes.", "anchors": ["importer/balanced/builder.go:Layout", "importer/trickle/trickledag.go:Layout", "importer/helpers/dagbuilder.go:DagBuilderHelper.NewLeafNode", "importer/helpers/helpers.go:BlockSizeLimit", "importer/helpers/helpers.go:DefaultLinksPerBlock"]}
{"id": "C90", "title": "Blocks of a directory stay small however many entries it has", "statement": "After any history of directory operations: every shard block that GetNode of a HAMT directory yields has at most one link per index and at most (number of links) * (w + K + 26) + width/8 + 13 bytes, where K bounds the lengths of the names and w < 100 those of CIDs; with the default width of 256, names of at most 255 bytes and CIDs of at most 36 no shard block exceeds 81 197 bytes. If no caller cancels, the block of a basic directory is smaller than the sharding threshold + 23 bytes per link + its data + 11; with the default threshold of 256 KiB and CIDs of at least 34 bytes that is at most 438 KiB.", "quantifier": "every history of additions, removals, lookups, serialisations and reloads, every hash function, every schedule of enumeration, every number of entries, every function from nodes to CIDs of bounded length, every block of the directory", "why_tests_cant": "A test builds a directory of some size; the bound is on the largest block over all directories and histories, including those that switch between the two forms.", "anchors": ["io/directory.go:DynamicDirectory.AddChild", "io/directory.go:BasicDirectory.needsToSwitchToHAMTDir", "io/directory.go:HAMTShardingSize", "hamt/hamt.go:Shard.Node"]}
{"id": "C91", "title": "What an imported file costs besides its bytes", "statement": "Importing n chunks with m links per node gives at most (n-1)/(m-1) + k blocks with links in the balanced layout, where n <= m^k, and at most (n-1)/m + 1 in the trickle layout. With CIDs of at most w < 100 bytes, all the blocks of the file together have at most (w+42) bytes for each chunk and (w+52) bytes for each block with links besides the bytes of the file itself (and 14 for the empty balanced file). With the default of 174 links per node and CIDs of at most 36 bytes that is at most 79 bytes per chunk and 88 per level (balanced) or 88 in all (trickle).", "quantifier": "every number of links per node (at least 2 for balanced, 1 for trickle), every number and length of chunks the importer accepts, raw and protobuf leaves, every node budget and CID builder, every function from nodes to CIDs of bounded length", "why_tests_cant": "A test measures files of some sizes; nodes that are left half full, or an extra chain of nodes at some sizes only, show at sizes no test builds.", "anchors": ["importer/balanced/builder.go:Layout", "importer/trickle/trickledag.go:Layout", "importer/helpers/dagbuilder.go:DagBuilderHelper.NewLeafDataNode", "importer/helpers/dagbuilder.go:FSNodeOverDag.Commit"]}
{"id": "C92", "title": "An edit needs only the blocks it touches", "statement": "A write that begins within the file succeeds, with the result of writing to a plain byte array, whatever blocks of the file cannot be fetched, provided these can be: the blocks that overlap with the range written to, the blocks stored by the write itself, and, if it extends the file, the blocks on the path of last children of nodes that are full. A write at the very end needs no block of the file besides that path. Truncate to less than the size needs only the children, up to the cut, of the blocks the cut goes through. trickle.Append needs only the path of last children.", "quantifier": "every file whose recorded sizes are true, every offset within it and every non-empty buffer, every cut, every splitter and buffer size, every set of blocks that cannot be fetched (also one that changes over time) outside those named", "why_tests_cant": "Tests run on a store that has every block. Fetching one block too many, at some depth or offset only, goes unnoticed there and makes editing a partially available file fail.", "anchors": ["mod/dagmodifier.go:DagModifier.Sync", "mod/dagmodifier.go:DagModifier.modifyDag", "mod/dagmodifier.go:DagModifier.Truncate", "mod/dagmodifier.go:DagModifier.dagTruncate", "importer/trickle/trickledag.go:Append"]}
{"id": "C93", "title": "What an edit costs depends on its range, not on the size of the file", "statement": "A successful write that begins within the file stores at most one block for the root, one on each level for each leaf that has bytes in the range written to, and, if it extends the file, two blocks for each new chunk, one on each level and the new root. A write within the file makes at most twice that many requests to the DAG service. Truncate to less than the size stores at most one block on each level and the root. trickle.Append stores at most two blocks for each chunk and one on each level of the base. So overwriting l bytes of a file that the balanced layout made of at most Maxlinks^h chunks, all but the last of at least k bytes, stores at most 1 + h * (l / k + 2) blocks.", "quantifier": "every file whose recorded sizes are true, every offset within it and every non-empty buffer, every cut, every splitter and buffer size; for the last sentence every number and every size of chunks", "why_tests_cant": "Tests use small files and look at the content only. Rewriting blocks that need not change, or one block too many per level, does not change any content; the bound is about all files and offsets.", "anchors": ["mod/dagmodifier.go:DagModifier.Sync", "mod/dagmodifier.go:DagModifier.modifyDag", "mod/dagmodifier.go:DagModifier.dagTruncate", "importer/trickle/trickledag.go:Append", "importer/trickle/trickledag.go:appendRec"]}
{"id": "C94", "title": "A directory keeps the CID builder that was set", "statement": "GetNode returns a node with the CID builder that SetCidBuilder set last (nil means CIDv0; the codec is made dag-pb), or else that of the node the directory was loaded from (CIDv0 for a new one). This holds through every switch between the basic and the HAMT form, failed calls and reloads. If the builder is set on a new directory, before there are entries, every shard of its HAMT form has it. SetCidBuilder changes the builder of the root node and nothing else of the node: shards below that exist already keep theirs.", "quantifier": "every history of calls, every threshold, failure, enumeration and schedule; for the shards below: histories with non-empty names", "why_tests_cant": "The builder must survive unbounded histories with switches in both directions and errors half-way; a test sees a few of them, with small directories that have no shards below the root.", "anchors": ["io/directory.go:(*BasicDirectory).SetCidBuilder", "io/directory.go:(*HAMTDirectory).SetCidBuilder", "io/directory.go:(*BasicDirectory).switchToSharding", "io/directory.go:(*HAMTDirectory).switchToBasic", "hamt/hamt.go:(*Shard).SetCidBuilder", "hamt/hamt.go:(*Shard).swapValue", "hamt/hamt.go:(*Shard).Node"]}
{"id": "C95", "title": "Edits keep the CID version and hash function of a file", "statement": "If the CIDs of all blocks of a file are made with the CID version and hash function of its root (raw blocks with the raw codec, hence CIDv1), then the same holds of every block that a DagModifier of the file stores, of everything below these blocks, and of the nodes that GetNode returns, in every history of calls. The same holds for trickle.Append with a builder of that version and hash function.", "quantifier": "every file of one kind, every history of modifier calls, every splitter, every pattern of failing requests", "why_tests_cant": "Tests build a file with one CID version, edit it once and look at the root; a block with another version can arise in any of the code paths (overwriting in place, appending, extending with zeros, truncating, the inner nodes of the grown tree) at any depth.", "anchors": ["mod/dagmodifier.go:NewDagModifier", "mod/dagmodifier.go:modifyDag", "mod/dagmodifier.go:appendData", "mod/dagmodifier.go:dagTruncate", "importer/trickle/trickledag.go:Append", "importer/helpers/dagbuilder.go:NewFSNodeOverDag"]}
{"id": "C96", "title": "Edits keep the format of the leaves of a file", "statement": "If all leaves of a file are raw blocks, all leaves below the blocks that a DagModifier stores are raw; if no block of the file is raw, no block that it stores is.", "quantifier": "every file, every history of modifier calls, every splitter, every pattern of failing requests", "why_tests_cant": "Leaves arise by overwriting, appending, extending and truncating, in histories of any length; tests fix one combination of options.", "anchors": ["mod/dagmodifier.go:NewDagModifier", "mod/dagmodifier.go:modifyDag", "mod/dagmodifier.go:appendData", "mod/dagmodifier.go:dagTruncate", "importer/helpers/dagbuilder.go:NewLeafNode"]}
{"id": "C97", "title": "Files stay shallow and narrow however they grow", "statement": "A file that was imported with m links per node and then changed by any number of Append calls with m links per node and (for the default m) by any number of DagModifier histories has a height of at most 3*log2(number of leaf blocks)+1 if it was laid out by trickle.Layout, of at most that much more than the height it started with if it was imported otherwise (with at most m links at the root); and none of its nodes has more than m+12*log2(number of leaf blocks) links (or more than the widest node it started with).", "quantifier": "every file, every sequence of appends and edits of any length, all chunks, every number m > 0 of links, every pattern of failing requests (as long as the DAG service refuses no block that Append inside a modifier hands to it)", "why_tests_cant": "Append miscounts the depth of sub-graphs, so its results are not trickle DAGs, and the damage could add up over many calls; a test performs a few of them.", "anchors": ["importer/trickle/trickledag.go:Append", "importer/trickle/trickledag.go:appendFillLastChild", "importer/trickle/trickledag.go:appendRec", "importer/trickle/trickledag.go:fillTrickleRec", "importer/trickle/trickledag.go:trickleDepthInfo", "mod/dagmodifier.go:modifyDag", "mod/dagmodifier.go:dagTruncate", "mod/dagmodifier.go:appendData"]}
{"id": "C98", "title": "No block of a file outgrows the transfer limit, however the file is changed", "statement": "Start from a file that balanced.Layout or trickle.Layout made, and change it any number of times with trickle.Append and with DagModifiers (writes, seeks beyond the end, truncations, syncs), in any order. Every block of every resulting file, as encoded with CIDs of at most w bytes, has at most 1 MiB + 35 bytes + (w + 28) bytes per link. With the library's 174 links per node, CIDs of at most 36 bytes and less than 2^64 leaves that is at most 1,108,131 bytes, well below the 2 MiB that peers exchange.", "quantifier": "every import, every sequence of appends and modifier histories of any length, all chunks, options and failures of the DAG service (as long as it refuses no block that Append inside a modifier hands to it), every block", "why_tests_cant": "Blocks grow slowly over long histories (a small file even keeps its payload in the same block as its links), so that no test of a few edits comes near a limit; the claim is about every history.", "anchors": ["importer/trickle/trickledag.go: Append", "importer/helpers/dagbuilder.go: NewLeafNode, FillNodeLayer, AddChild, Commit", "mod/dagmodifier.go: modifyDag, dagTruncate, appendData", "unixfs.go: GetBytes, WrapData"]}
{"id": "C99", "title": "An extension that fails changes nothing, and can be repeated", "statement": "A call that extends or shortens a file and reports an error has done all of what it was asked for or nothing: after any sequence of Truncate calls and of Seek calls to absolute positions on a new DagModifier, GetNode returns the file that results when each successful call did its part and each failed call did all of it or nothing; a call can be repeated until it succeeds, and the file is then as if the first attempt had succeeded. In the same way, a trickle.Append that returns an error leaves the node that it was given as it was.", "quantifier": "every file, every sequence of such calls of any length with any sizes, every pattern of blocks that cannot be fetched or stored; every base node, all chunks and options of Append", "why_tests_cant": "The claim is about every point at which one of the many fetches and stores of a call can fail, and about repeating after it; tests let no store fail.", "anchors": ["importer/trickle/trickledag.go:Append", "importer/helpers/dagbuilder.go:FSNodeOverDag.AddChild", "mod/dagmodifier.go:expandSparse", "mod/dagmodifier.go:Truncate", "mod/dagmodifier.go:Seek"]}
{"id": "C100", "title": "VerifyTrickleDagStructure accepts exactly the trickle DAGs", "statement": "VerifyTrickleDagStructure returns nil for a DAG if and only if it is a trickle DAG with the given parameters: every inner node is a unixfs file without bytes of its own and with the CID prefix asked for; its first Direct children are leaves of the format asked for; its other children are trickle DAGs, LayerRepeat in each layer, with children only in layers below their own; all children can be fetched; and what is accepted is what an import makes (full sub-graphs before new ones begin, true sizes).", "quantifier": "every DAG, all parameters with LayerRepeat > 0, every set of blocks that can be fetched", "why_tests_cant": "Tests give it DAGs that the importer made; which others it accepts concerns all DAGs.", "anchors": ["importer/trickle/trickledag.go:VerifyTrickleDagStructure", "importer/trickle/trickledag.go:verifyTDagRec"]}
{"id": "C101", "title": "Truncating an imported file gives the same DAG as importing the shortened bytes", "statement": "Take a file imported with balanced.Layout or trickle.Layout, overwrite bytes inside it through a DagModifier and then Truncate it to a smaller size, every call succeeding. The DAG that GetNode returns is, block for block and so CID for CID, the DAG that the same Layout builds from the remaining bytes cut at the same chunk boundaries.", "quantifier": "all import parameters (links per node, raw leaves, CID builder), chunk lists, careful histories of Write/WriteAt/Seek/Read/Sync/GetNode/Size calls inside the file, sizes, DAG services, and re-imports", "why_tests_cant": "It relates dagTruncate to two independent importers over every tree shape, chunking, edit history and cut; tests compare contents, never DAGs, and the cases in which it fails are boundary cases.", "anchors": ["mod/dagmodifier.go: Truncate, dagTruncate", "importer/balanced/builder.go: Layout", "importer/trickle/trickledag.go: Layout", "unixfs.go: WrapData"]}
{"id": "C102", "title": "Appending to an imported file gives the same DAG as importing everything at once", "statement": "A file that was imported with trickle.Layout and then grown by any number of successful trickle.Append calls with the same options is, block for block and so CID for CID, the DAG that one trickle.Layout builds from all the chunks.", "quantifier": "all import parameters (links per node, raw leaves, CID builder), chunk lists, numbers of Append calls, DAG services, missing blocks and bounds", "why_tests_cant": "It relates two different algorithms (the recursive filling of last children in Append, the recursive building in Layout) over every shape of the base and every amount of new data; tests compare contents and shapes for a few sizes, and the cases in which it fails are boundary cases.", "anchors": ["importer/trickle/trickledag.go: Layout, fillTrickleRec, Append, appendFillLastChild, appendRec, trickleDepthInfo"]}
{"id": "C103", "title": "Writing beyond the end of an imported file through a DagModifier gives the same DAG as importing everything", "statement": "A file imported with trickle.Layout is opened with NewDagModifier, edited in place, and then a Seek to a place inside the file or its end and one Write extend it. GetNode then returns, block for block and so CID for CID, the DAG that trickle.Layout builds from the edited bytes cut as before followed by the chunks the modifier's splitter makes of the bytes beyond the old end.", "quantifier": "all chunk lists, histories of careful calls inside the file, offsets, written bytes, write-buffer sizes, splitters, DAG services, and import options equal to those of the modifier", "why_tests_cant": "It composes the write buffer, the in-place edit, the splitting of the remaining bytes and the recursive append; that no trace of the route is left in the DAG concerns every shape of the file and every offset, and tests only compare the contents read back.", "anchors": ["mod/dagmodifier.go: Write, Seek, Sync, modifyDag, appendData, GetNode, NewDagModifier", "importer/trickle/trickledag.go: Append, Layout"]}
{"id": "C104", "title": "Storing an edited sharded directory costs a bounded number of blocks per call", "statement": "A sharded directory is stored, loaded again with NewHamtFromDag, and calls on single names (Set, SetLink, Swap, Remove, Take, Find, and Node, SetCidBuilder) are made on it, with any results. Then Node adds at most 1 + 2 * (64 / log2 width) * (number of calls) blocks to the DAG service, whatever the size of the directory. The same holds for a new directory that is stored for the first time.", "quantifier": "all widths, histories before and after loading, hash functions of 64 bits, networks and DAG services that fail at any call", "why_tests_cant": "The number of shards written depends on which sub-shards every earlier call has loaded, created or merged; the bound is for every directory and history, while tests look at the result of Node, not at what it adds.", "anchors": ["hamt/hamt.go: Shard.Node, Link, swapValue, getValue, loadChild, NewHamtFromDag"]}
{"id": "C105", "title": "A sharded directory that does not shrink is not enumerated", "statement": "A directory is loaded in its sharded form with NewDirectoryFromNode, after any history. As long as the calls on it leave it no smaller than it was when it was loaded (size: the lengths of names and CIDs), no AddChild or RemoveChild enumerates its entries to decide about the form; every call on a name fetches at most 2 * (64 / log2 width) + 1 blocks, whatever the size of the directory; and it stays sharded. In particular this holds for additions of new names.", "quantifier": "all histories before and after loading that ask for no list of entries, all widths, 64-bit hash functions, thresholds (also changing ones), schedules of earlier enumerations, failing fetches and failing additions to the DAG service", "why_tests_cant": "The decision depends on a running estimate of the change since loading, over every history. The violation (two calls that store an entry that is there already make the second call enumerate the directory) has no effect on results, only on the number of blocks fetched.", "anchors": ["io/directory.go: HAMTDirectory.needsToSwitchToBasicDir, addToSizeChange, removeFromSizeChange, sizeBelowThreshold, DynamicDirectory.AddChild, RemoveChild"]}
{"id": "C106", "title": "A file edited in many sessions is the import of its chunks", "statement": "A file is laid out by trickle.Layout and then changed any number of times, in any order: appended to with trickle.Append, or opened by a new DagModifier that overwrites parts of it, truncates it inside a chunk, or writes beyond its end, until GetNode returns the next version. As long as every step is one for which C85, C101, C102 or C103 gives the DAG of a single import, the final DAG is what trickle.Layout makes of the final chunks: it holds their bytes, such an import succeeds, and two files brought to the same chunks by different sequences of sessions are the same DAG (so have the same CID).", "quantifier": "all sequences of sessions of any length, all histories of careful calls in each session, all splitters, DAG services, builders and leaf kinds of C103 (174 links per node, modifier-compatible parameters), all positions and sizes, all chunks", "why_tests_cant": "The DAG after each session is the input of the next one: a tree whose chunks agree but whose shape differs would only show in a later session. Tests run one session on one file.", "anchors": ["mod/dagmodifier.go: NewDagModifier, WriteAt, Write, Seek, Truncate, GetNode, modifyDag, appendData, dagTruncate", "importer/trickle/trickledag.go: Layout, Append, appendFillLastChild, appendRec"]}
{"id": "C107", "title": "Random access to a file costs a number of blocks that depends on its height, not on its size", "statement": "On any DAG that NewDagReader opens, after any history of calls: Seek asks the DAG service for at most h blocks, where h is the height of the DAG; reading k bytes asks for at most h * (k / s + 1) blocks if every leaf but the last holds at least s bytes; hence Seek and Read together ask for at most h * (k / s + 2). For a file that balanced.Layout made of n chunks of at least s bytes (but the last), h can be replaced by any d with n <= maxlinks^d; for trickle.Layout, by d + 1 with n <= maxlinks * 5^d. Reads and WriteTo without a Seek ask for each block at most once, and again only after a failed fetch.", "quantifier": "all DAGs (well-formed or not), DAG services with any failures, histories of Read, Seek and WriteTo, offsets, lengths, chunk lists and links per node", "why_tests_cant": "Bytes read do not depend on how many blocks were fetched; tests neither count requests nor reach heights beyond two.", "anchors": ["io/dagreader.go: dagReader.Seek, dagReader.CtxReadFull, dagReader.WriteTo", "importer/balanced/builder.go: Layout", "importer/trickle/trickledag.go: Layout"]}
{"id": "C108", "title": "A file kept in a store and edited in many sessions reads back as the byte array that the same calls would make", "statement": "Start with EmptyFileNode, balanced.Layout or trickle.Layout, then any number of times open a new DagModifier on the last version, make careful calls (those of C26: writes that continue or follow a Seek, no change of length under a reader), and take GetNode, or call trickle.Append and store the root it returns; other things may be stored in between, for example by calls that failed. Then the last version holds exactly the bytes that a plain byte array would hold after the same calls, its recorded sizes are true, every block of it has been stored, and a DagReader over a DAG service that has only the blocks stored reads, seeks and copies it like that byte array. A session itself fails only for a reason outside the modifier, and succeeds when the DAG service and the splitter work.", "quantifier": "all starting files, chunk lists, links per node, leaf kinds and CID builders, numbers of sessions, histories of calls in each, splitters, failures of the DAG service in each session, later DAG services that have at least the blocks stored, and histories of reader calls", "why_tests_cant": "Tests make one session on one file and read from the same in-memory service; that no sequence of sessions loses a block or a byte is a statement about all of them.", "anchors": ["mod/dagmodifier.go: DagModifier.Write, WriteAt, Seek, Truncate, Read, Sync, GetNode", "importer/balanced/builder.go: Layout", "importer/trickle/trickledag.go: Layout, Append", "io/dagreader.go: NewDagReader", "unixfs.go: EmptyFileNode"]}
{"id": "C109", "title": "A tree of files and directories kept in a store and edited in many sessions resolves, lists and reads back from the blocks stored", "statement": "Files are made and edited as in C108; symbolic links are made with SymlinkData; directories start as EmptyDirNode and are changed in any number of sessions, each of which loads the last version with NewDirectoryFromNode, makes any calls (AddChild, RemoveChild, Find, Links, ForEachLink, GetNode, SetCidBuilder, whether they fail or not, with conversions between the two kinds of directory), adds only nodes that are stored with all their blocks, and stores the node that GetNode returns. Then every block of the tree is in the store. With a DAG service that has the blocks of the store and perhaps no others, ResolveUnixfsOnce, applied name by name, finds for every path of the tree a node that stands for what is there and reports os.ErrNotExist for every other path; NewUnixfsFile opens a file that reads as its content, a symbolic link with its target, and a directory whose Find and Links give exactly the entries. One AddChild or RemoveChild that succeeds changes the tree by exactly that entry, and the rest of the tree stays in the store.", "quantifier": "all trees, all sessions on all their directories and files, environments (thresholds, shard widths, failures of the DAG service and of enumerations) in each session, later DAG services that have at least the blocks stored, paths without empty names, and histories of reader calls", "why_tests_cant": "Tests edit one directory in memory with a service that never loses anything; that no block is missing after any number of sessions, also after sessions in which calls failed, is a statement about all histories.", "anchors": ["io/directory.go: NewDirectoryFromNode, DynamicDirectory.AddChild, RemoveChild, Find, Links, GetNode", "io/resolve.go: ResolveUnixfsOnce", "file/unixfile.go: NewUnixfsFile", "hamt/hamt.go: Shard.Set, Remove, Find, Node", "unixfs.go: EmptyDirNode, EmptyFileNode, SymlinkData"]}
{"id": "C110", "title": "The bytes written and read are those of the published UnixFS format", "statement": "FSNodeFromBytes accepts a byte string exactly when it is protobuf fields of the UnixFS schema one after the other with a Type among them: base-128 numbers of at most 10 bytes and 64 bits, fields of the wire types 0, 1, 2, 3 (groups, nested to any depth) and 5, block sizes packed or not. The last field of each kind counts, block sizes are collected and unknown fields are kept. The accessors (Type, IsDir, Data, FileSize, BlockSize, NumChildren, HashType, Fanout) return what these fields say, with the type numbers 0 raw, 1 directory, 2 file, 3 metadata, 4 symlink, 5 HAMT shard. GetBytes, FilePBData, FolderPBData, WrapData, SymlinkData, HAMTShardData, BytesForMetadata and Metadata.Bytes write exactly the bytes of the format. MetadataFromBytes accepts exactly a node of type 3 whose data is fields of the metadata message, and returns the last MIME type.", "quantifier": "every byte string; every node the API can produce; every data, path, MIME type, size, fanout and hash type (lengths below 2^63, MIME type below 2^62)", "why_tests_cant": "Interoperability needs every byte string to be read as other implementations read it. Tests round-trip through the same codec, so an encoder and a decoder that are wrong in the same way pass.", "anchors": ["unixfs.go:FSNodeFromBytes", "unixfs.go:FSNode.GetBytes", "unixfs.go:FilePBData", "unixfs.go:FolderPBData", "unixfs.go:WrapData", "unixfs.go:SymlinkData", "unixfs.go:HAMTShardData", "unixfs.go:MetadataFromBytes", "unixfs.go:BytesForMetadata", "pb/unixfs.proto"]}
{"id": "C111", "title": "The node of a sharded directory is the published HAMT of its entries", "statement": "After any calls on a new shard, Shard.Node gives the HAMT that the UnixFS specification defines for the entries that Find gives: at depth d, an entry is in the slot given by bits d*lg to (d+1)*lg of the hash of its name; the shard's data is the literal fields type 5, bitmap (big-endian, no leading zeros, absent if empty), hash function 0x22 and fanout; there is one link per occupied slot in slot order, named by the slot number in upper-case hexadecimal of fixed width, followed by the entry's name if the slot has one entry, and leading to a shard of the next depth if it has several. The same holds of GetNode for a directory in its HAMT form. Conversely every such node, however it was made, is accepted by NewHamtFromDag, Find gives exactly its entries, and after further calls Node again gives the published form. The node is determined by the set of entries.", "quantifier": "every hash function with 64-bit results, every width 8 to 1024, every history of calls with non-empty names and no SetCidBuilder after the first entry, every set of failing fetches and refused additions, every list of entries with different non-empty names", "why_tests_cant": "Other implementations read these nodes, and CIDs must be equal for equal directories. Tests compare a few directories with stored CIDs; the form must hold for all names, collisions of any depth and histories with removals.", "anchors": ["hamt/hamt.go:Shard.Node", "hamt/hamt.go:NewHamtFromDag", "hamt/hamt.go:Shard.Find", "hamt/util.go:hashBits.Next", "io/directory.go:HAMTDirectory.GetNode"]}
{"id": "C112", "title": "The node of an imported file is the published layout of its chunks", "statement": "A successful balanced import of a non-empty file gives exactly the node of the UnixFS balanced layout: the leaves (raw blocks, or nodes of type 2 with the chunk and its length) are put, in order, under nodes of up to m links, level by level, until one is left; each inner node has the literal fields type 2, the number of bytes below it and the number of bytes below each child, and nameless links with the children's cumulative sizes. An empty file is one empty leaf. A successful trickle import gives exactly the node of the trickle layout: the first m children of a node are leaves (type 0), the next four are nodes of layer 1, the next four of layer 2 and so on, every child but the last is full. Both layouts determine the node, so every implementation of them gives the same CID. A file edited in sessions that keep to its chunks stays the trickle layout of its chunks. Conversely NewDagReader opens every node in one of the layouts, whoever made it, and the reader answers every sequence of calls as a flat file of the chunks does.", "quantifier": "every list of chunks with fewer than 2^64 bytes in total, every number of links per node (at least 2 for balanced, at least 1 for trickle), raw and protobuf leaves, every CID builder, every end of the source and every fuel of the model", "why_tests_cant": "Equal files must get equal CIDs in every implementation, for all sizes. Tests compare sizes and contents, and a few stored CIDs; the shape must be right at every power of m and every layer of the trickle tree.", "anchors": ["importer/balanced/builder.go:Layout", "importer/balanced/builder.go:fillNodeRec", "importer/trickle/trickledag.go:Layout", "importer/trickle/trickledag.go:fillTrickleRec", "importer/helpers/dagbuilder.go:DagBuilderHelper.NewLeafDataNode", "importer/helpers/dagbuilder.go:FSNodeOverDag.AddChild", "importer/helpers/dagbuilder.go:FSNodeOverDag.Commit"]}
{"id": "C113", "title": "A published directory, whoever made it, is loaded, is the map of its entries and stays published", "statement": "A directory node in the form of the UnixFS specification (either plain: the data 08 01 and a link for each entry; or a HAMT of the entries, as in C111), made by any implementation, is accepted by NewDirectoryFromNode. Every call in any history on the loaded directory (AddChild, RemoveChild, Find, Links, ForEachLink, GetNode, loading it again, changes of the threshold), in either form and through all switches between them, does what it must do to the map of these entries. As long as the CID builder is not changed, GetNode then gives again a directory in the form of the specification, of exactly the entries that the calls left, with the CID builder of the loaded node, and of the loaded or the configured width if it is a HAMT.", "quantifier": "every published directory with distinct non-empty names and a dag-pb CID builder, every width 8 to 1024 of the loaded HAMT and of new ones, every history of calls with non-empty names, every threshold, every set of failing fetches and refused additions, every schedule and cancellation of the enumerations", "why_tests_cant": "Directories come from other implementations and from stores written long ago. The repository's tests load only directories that it has itself written in the same test; the claim ranges over all published nodes and all histories after loading.", "anchors": ["io/directory.go:NewDirectoryFromNode", "io/directory.go:DynamicDirectory.AddChild", "io/directory.go:DynamicDirectory.RemoveChild", "io/directory.go:BasicDirectory.GetNode", "io/directory.go:HAMTDirectory.GetNode", "hamt/hamt.go:NewHamtFromDag"]}
{"id": "C114", "title": "A tree in the published format, whoever made it, resolves, lists and reads back", "statement": "Take any tree of files, symbolic links and directories, and any node that is this tree in the UnixFS format: files in the balanced or the trickle layout with any parameters and chunks (C112), symbolic links and plain directories by their literal bytes, sharded directories as HAMTs of any width (C111). Nothing is assumed about the program that made it. Resolving a path gives the published form of what is at the path in the tree, or reports that there is nothing, or that a block could not be fetched. NewUnixfsFile of it gives a file that answers every sequence of calls as the flat content does, a symbolic link with its target, or a directory with exactly the entries of the tree. Conversely, what the importers of this library make is in this format, and so is a directory in this format after it was loaded, changed by any calls and written, if what was added is.", "quantifier": "every finite tree with distinct non-empty names, every published form of it, every path, every fetch failure, every sequence of reader calls, every history of directory calls that does not change the CID builder", "why_tests_cant": "Trees are exchanged between implementations. Tests read only trees that the same code has written, and only a few.", "anchors": ["io/resolve.go:ResolveUnixfsOnce", "file/unixfile.go:NewUnixfsFile", "io/dagreader.go:NewDagReader", "io/directory.go:NewDirectoryFromNode", "importer/balanced/builder.go:Layout", "importer/trickle/trickledag.go:Layout"]}
{"id": "C115", "title": "A node stands for one tree only, and directories made with this library are in the published format", "statement": "Two trees that have the same node in the UnixFS format (C114), with whatever layouts, widths, chunks and parameters, are the same tree, up to the order of the entries of directories: no CID can be read as two different trees, nor as a file by one reader and as a directory by another. A directory that was made with NewDirectory, with or without a call of SetCidBuilder at the beginning, by any history of further calls, of which any may fail, and written with GetNode, is in this format for the tree with the entries of the history, if what was added is. So is a file that was imported with the options of a DagModifier and then edited in any number of sessions (C106).", "quantifier": "every pair of trees and every node that is a published form of both; every history of directory calls, every failure of fetches, stores and enumerations, every threshold and width", "why_tests_cant": "That no two of infinitely many trees and parameter choices share a node cannot be found by trying some, and the histories of a directory are unbounded.", "anchors": ["io/directory.go:NewDirectory", "io/directory.go:GetNode", "file/unixfile.go:NewUnixfsFile", "io/resolve.go:ResolveUnixfsOnce", "mod/dagmodifier.go:DagModifier"]}
{"id": "C116", "title": "With settled parameters, two trees have the same node if and only if they are the same", "statement": "Settle how contents are cut into chunks, the layout and its parameters, the CID builder, and which sets of entries are written as HAMTs and of which width. Then every tree has at most one node, and two trees have the same node exactly when they are the same up to the order of entries. Files imported with these settings have that node. A directory made with NewDirectory, with the CID builder set first, by any history of calls, of which any may fail, has that node when it is encoded, if the settings agree with it on whether it is a HAMT: the history leaves no other trace.", "quantifier": "every choice of settings, every pair of trees, every history of directory calls, every failure", "why_tests_cant": "Reproducible CIDs are what users compare between machines. Tests compare a few trees made by a few histories.", "anchors": ["io/directory.go:NewDirectory", "io/directory.go:GetNode", "hamt/hamt.go:Node", "importer/balanced/builder.go:Layout", "importer/trickle/trickledag.go:Layout"]}
{"id": "C117", "title": "The sizes recorded in a tree, and the size of a directory, are the bytes of its blocks", "statement": "In a tree of files, symbolic links, plain directories and HAMTs (C116), every link at every depth records the number of bytes of all blocks of what it leads to, encoded with CIDs of the right lengths and each counted as often as there are ways to it. The Size of the directory that NewUnixfsFile makes of such a tree is the number of bytes of the blocks of the whole tree.", "quantifier": "every tree and all settings, every node and link in it, every assignment of CIDs of the right lengths", "why_tests_cant": "The sizes are added up over all levels of files, shards and directories; tests compare them with stored numbers for single files.", "anchors": ["file/unixfile.go:newUnixfsDir", "file/unixfile.go:Size", "hamt/hamt.go:Node", "io/directory.go:AddChild", "importer/helpers/dagbuilder.go:AddChild"]}
{"id": "C118", "title": "Every tree has exactly one node", "statement": "Settle the parameters as in C116, so that the chunks of a content make it up and none is larger than 1 MiB, that nodes may have two links, and that HAMTs of 8 to 1024 slots are used only for names that the hash tells apart. Then every tree with distinct non-empty names has a node in the UnixFS format, and only one.", "quantifier": "every tree with distinct non-empty names in each directory and contents that Go can count, all settings", "why_tests_cant": "Existence and uniqueness for every tree of every size cannot be shown by examples.", "anchors": ["importer/balanced/builder.go:Layout", "importer/trickle/trickledag.go:Layout", "io/directory.go:GetNode", "hamt/hamt.go:Node"]}
{"id": "C119", "title": "Copying a tree out gives the tree", "statement": "A program opens the root of a published tree, reads every file with WriteTo or with Read until the end of the file, and goes through every directory with the iterator of Entries, recursively. If no call leaves it with an error, it has got the tree, although any fetch may have failed and been tried again. If the blocks of the tree can be fetched, it can get through; no other blocks are needed.", "quantifier": "every tree, every published form of it, every choice of answered and failed fetches, all buffer sizes, every interleaving of the iterators with their producers", "why_tests_cant": "The claim is about all trees, all schedules of one goroutine per directory, and all fault patterns at once.", "anchors": ["file/unixfile.go:NewUnixfsFile", "file/unixfile.go:Entries", "file/unixfile.go:Next", "io/dagreader.go:Read", "io/dagreader.go:WriteTo", "io/directory.go:ForEachLink"]}
{"id": "C120", "title": "An edited tree is copied out as edited", "statement": "Files and directories are made with this library and changed in any number of sessions: files by import, DagModifier and trickle.Append, directories by Directory calls of which any may fail. A program that copies the tree out as in C119, and is not left with an error, gets what the same calls would have made of byte arrays and maps. The blocks stored are enough for it.", "quantifier": "every tree, every history of sessions, every choice of answered and failed fetches, all ways to read, every interleaving of the iterators with their producers", "why_tests_cant": "Histories, faults and schedules are unbounded and combine.", "anchors": ["mod/dagmodifier.go:DagModifier", "importer/trickle/trickledag.go:Append", "io/directory.go:DynamicDirectory", "file/unixfile.go:NewUnixfsFile", "file/unixfile.go:Entries", "io/dagreader.go:WriteTo"]}
{"id": "C121", "title": "Going through any DAG neither panics nor goes on without end", "statement": "A program opens a node with NewUnixfsFile, reads the files it comes upon, and goes down into directories with the iterators of Entries. Whatever the blocks contain, well formed or not, and whichever can be fetched: no call panics, every call returns, and the program goes fewer levels down than the DAG is high.", "quantifier": "every DAG, including malformed files, directories and HAMT shards, every choice of answered and failed fetches, every sequence of calls on the readers, every interleaving of the iterators with their producers", "why_tests_cant": "Malformed inputs are unbounded in size, depth and form; faults and schedules combine with them.", "anchors": ["file/unixfile.go:NewUnixfsFile", "file/unixfile.go:Entries", "file/unixfile.go:Next", "io/dagreader.go:NewDagReader", "io/directory.go:NewDirectoryFromNode", "hamt/hamt.go:NewHamtFromDag"]}
{"id": "C122", "title": "What is read without an error is the whole file, for any DAG", "statement": "A file reader is opened on any node, well formed or not. If WriteTo returns no error, or if Read is called until it reports the end of the file and no call reported another error than a block that could not be fetched, then every leaf of the DAG can be read as file data, and the bytes delivered are those of the leaves in order. So two programs that read the same DAG without errors get the same bytes, and a DAG with a leaf that is not file data is never taken for a shorter file. (After an error of another kind Read goes on behind the bad leaf; a program that ignores it can come to the end of a file without content.)", "quantifier": "every DAG whatever sizes and types its nodes record, every choice of answered and failed fetches, every sequence of read sizes and retries; content shorter than 2^63 bytes for the delivered bytes", "why_tests_cant": "Malformed DAGs and fault patterns are unbounded and combine.", "anchors": ["io/dagreader.go:NewDagReader", "io/dagreader.go:CtxReadFull", "io/dagreader.go:WriteTo", "unixfs.go:ReadUnixFSNodeData"]}
{"id": "C123", "title": "Any DAG is copied out in one way only", "statement": "Two programs copy the same DAG out with NewUnixfsFile, the iterators of Entries and the readers, each in its own way, at its own time and with other blocks at hand. If neither is told of an error, they get the same tree: the same kinds, names, order of entries, link targets and bytes. And if one program gets a tree, every program gets it that can fetch the blocks of the DAG, whenever it comes. The DAG need not be well formed. (A program may call Read again when a block could not be fetched, but gives up on other errors.)", "quantifier": "every DAG, including malformed ones and ones with duplicate names, every two choices of answered and failed fetches, all ways to read, every interleaving of the iterators with their producers; files of less than 2^63 bytes", "why_tests_cant": "Malformed DAGs, fault patterns and schedules are unbounded and combine, and two runs are compared.", "anchors": ["file/unixfile.go:NewUnixfsFile", "file/unixfile.go:Entries", "io/dagreader.go:WriteTo", "io/dagreader.go:CtxReadFull", "hamt/hamt.go:ForEachLink", "io/directory.go:ForEachLink"]}
{"id": "C124", "title": "What is found by name is listed, for any directory", "statement": "When Find of a directory gives a node for a name, ForEachLink on that directory, if it ends without an error, has listed this node under this name, whenever and with whatever blocks at hand it is called. This holds for every directory that can be loaded, also a malformed or partly loaded one. In a directory that is not sharded every listed name is also found when the blocks can be fetched. (In a malformed sharded directory a listed name need not be found: see the note.)", "quantifier": "every directory, basic or sharded, malformed or not, in every state of loading; every name; every two choices of answered and failed fetches; every hash function", "why_tests_cant": "Malformed shards, hash functions and fault patterns are unbounded, and two ways through the trie are compared.", "anchors": ["io/directory.go:Find", "io/directory.go:ForEachLink", "hamt/hamt.go:Find", "hamt/hamt.go:getValue", "hamt/hamt.go:ForEachLink", "hamt/hamt.go:walkTrie"]}
{"id": "C125", "title": "What a directory answers does not depend on what it was asked before", "statement": "Two programs have the same directory in the same state, and each goes through its own history of Find, Links and ForEachLink calls, with its own blocks at hand and its own failing callbacks. Then they look up a name: unless a block cannot be fetched, they get the same answer (a node, that the name does not exist, or the error of a malformed shard). And if both enumerate the directory without an error, they get the same list in the same order. And what one finds, the other's list has under that name. The directory may come from any DAG.", "quantifier": "every directory, basic or sharded, malformed or not, in every state of loading; every two histories of calls that only look, every choice of answered and failed fetches, every name, every hash function", "why_tests_cant": "Histories, fault patterns and malformed shards are unbounded and combine; lazily loaded shards are kept between calls.", "anchors": ["io/directory.go:Find", "io/directory.go:ForEachLink", "io/directory.go:Links", "hamt/hamt.go:Find", "hamt/hamt.go:ForEachLink", "hamt/hamt.go:get", "hamt/hamt.go:loadChild"]}
{"id": "C126", "title": "What was added to any directory is found there, and what was there stays", "statement": "A directory is loaded from any node, well formed or not, looked at in any way, and AddChild is called with a name that is not empty. If the call returns no error, Find of that name then gives the added node, or reports that a block cannot be fetched; it never gives another node, another error or that the name does not exist, whatever else is looked up or listed before and whether or not AddChild changed the form of the directory. While HAMTShardingSize is 0 (the default), every other name that could be found before still gives the same node, or a block is missing.", "quantifier": "every root node, every hash function (for the other names: with digests of one length), every history of calls that only look, before and after, every choice of answered and failed fetches, every name but the empty one, every node added, every value of HAMTShardingSize (0 for the other names)", "why_tests_cant": "Loaded directories can be malformed in unboundedly many ways (children at wrong positions, names twice, wrong counts), and shards split to any depth.", "anchors": ["io/directory.go:AddChild", "io/directory.go:Find", "io/directory.go:switchToSharding", "io/directory.go:switchToBasic", "hamt/hamt.go:swapValue", "hamt/hamt.go:getValue", "hamt/hamt.go:insert"]}
{"id": "C127", "title": "What was removed from any directory is not found there", "statement": "For a directory in any state, well formed or not, with HAMTShardingSize 0 (the default): RemoveChild without an error takes away a name that Find would have found at that moment (its node, or its block cannot be fetched), and a name of which Find says that it does not exist cannot be removed; RemoveChild says so too. After RemoveChild without an error Find says that the name does not exist, whatever else is looked up before, and the other names are found as before. (These last claims are false of malformed sharded directories: the name is found again if a shard with one link left is replaced by that link and it has the same name; and if the shards are of different widths, the link that moves up loses too few or too many letters, so that another name is lost.)", "quantifier": "every directory, basic or sharded, malformed or not, in every state of loading; every name, hash function and choice of answered and failed fetches; every history of calls that only look", "why_tests_cant": "Loaded directories can be malformed in unboundedly many ways, and shards are removed at any depth.", "anchors": ["io/directory.go:RemoveChild", "io/directory.go:Find", "hamt/hamt.go:Take", "hamt/hamt.go:swapValue", "hamt/hamt.go:getValue"]}
