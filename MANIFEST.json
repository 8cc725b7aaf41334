{
 "claims": [
  {
   "property": "C01",
   "status": "proved",
   "theorems": [
    "C01_fsnode_roundtrip"
   ],
   "note": "all nodes reachable through the API, byte-level codec"
  },
  {
   "property": "C02",
   "status": "proved",
   "theorems": [
    "C02_constructors",
    "mustMarshal_ok"
   ],
   "note": ""
  },
  {
   "property": "C03",
   "status": "proved",
   "theorems": [
    "C03_decode_iff",
    "C03_reencode",
    "C03_type_required"
   ],
   "note": "acceptance characterised exactly by the wire grammar in Verif/Spec/Wire.lean"
  },
  {
   "property": "C04",
   "status": "proved",
   "theorems": [
    "C04_size_accounting"
   ],
   "note": ""
  },
  {
   "property": "C05",
   "status": "partial",
   "theorems": [
    "C05_metadata_roundtrip_partial",
    "C05_metadata_size_lost"
   ],
   "note": "the code drops Metadata.Size: negation proved with a witness, MIME type part proved"
  },
  {
   "property": "C06",
   "status": "proved",
   "theorems": [
    "C06_balanced_content"
   ],
   "note": "for Maxlinks >= 2 (smaller values do not terminate, C13)"
  },
  {
   "property": "C07",
   "status": "proved",
   "theorems": [
    "C07_trickle_content"
   ],
   "note": "for Maxlinks >= 1"
  },
  {
   "property": "C08",
   "status": "proved",
   "theorems": [
    "C08_balanced_sizes",
    "C08_trickle_sizes"
   ],
   "note": "sizes are 64-bit"
  },
  {
   "property": "C09",
   "status": "proved",
   "theorems": [
    "C09_balanced_shape"
   ],
   "note": ""
  },
  {
   "property": "C10",
   "status": "proved",
   "theorems": [
    "C10_trickle_shape"
   ],
   "note": ""
  },
  {
   "property": "C100",
   "status": "partial",
   "theorems": [
    "C100_verify_partial",
    "C100_layout",
    "C100_bounds",
    "C100_violated",
    "C100_violated_gap"
   ],
   "note": "Accepted if and only if laid out as a trickle DAG (types, leaf formats, layers, prefixes, no data in inner nodes). False: that accepted DAGs have true sizes and full sub-graphs (two witnesses)."
  },
  {
   "property": "C101",
   "status": "partial",
   "theorems": [
    "C101_trickle_partial",
    "C101_balanced_partial",
    "C101_violated",
    "C101_violated_levels",
    "C101_violated_leaf"
   ],
   "note": "Proved for trickle.Layout and every cut inside a chunk, and for balanced.Layout with raw leaves where the shorter file needs as many levels. Missing cases are violated by the code: cuts between chunks leave an empty leaf, superfluous levels stay, protobuf leaves of a balanced file change their type from File to Raw."
  },
  {
   "property": "C102",
   "status": "partial",
   "theorems": [
    "C102_append_partial",
    "C102_violated_direct",
    "C102_violated_last",
    "C102_violated_second"
   ],
   "note": "Proved for any number of appends, each within the cases of AddsAlike; the code violates the property elsewhere, as the witnesses show."
  },
  {
   "property": "C103",
   "status": "partial",
   "theorems": [
    "C103_write_partial",
    "C103_violated_leaves",
    "C103_violated_many"
   ],
   "note": "one Seek and Write beyond the end after any careful calls inside the file, for import options that are those of the modifier and numbers of chunks where C102 holds; outside, the violation theorems show the code does differ"
  },
  {
   "property": "C104",
   "status": "proved",
   "theorems": [
    "C104_stored",
    "C104_new"
   ],
   "note": "Calls on single names; enumerations load every shard and are outside the statement."
  },
  {
   "property": "C105",
   "status": "partial",
   "theorems": [
    "C105_no_enumeration_partial",
    "C105_new_names",
    "C105_violated"
   ],
   "note": "Proved for histories whose size stays above the size at loading by three per replaced or removed entry, and in full for additions of new names; without that correction the code violates it (witness)."
  },
  {
   "property": "C106",
   "status": "proved",
   "theorems": [
    "C106_sessions",
    "C106_import",
    "C106_same"
   ],
   "note": "Steps carry the conditions of C85, C101, C102 and C103."
  },
  {
   "property": "C107",
   "status": "proved",
   "theorems": [
    "C107_seek",
    "C107_read",
    "C107_random",
    "C107_once",
    "C107_balanced",
    "C107_trickle"
   ],
   "note": "Counts the fetches the reader waits for; preloading of siblings is not modelled."
  },
  {
   "property": "C108",
   "status": "proved",
   "theorems": [
    "C108_kept",
    "C108_read_back",
    "C108_session",
    "C108_next"
   ],
   "note": "for the calls C26 calls careful; what other calls do wrong is C26-C32, C63-C65"
  },
  {
   "property": "C109",
   "status": "proved",
   "theorems": [
    "C109_blocks",
    "C109_resolve",
    "C109_open",
    "C109_put",
    "C109_remove"
   ],
   "note": "Every block of a kept tree is stored; paths resolve, files, links and directories open with only the stored blocks; adding or removing one entry changes the tree by that entry and keeps the rest. The hash is assumed to have 8 bytes only where a directory is changed (Env.Valid), as in C47. Links is stated for a call that is not cancelled and for services whose enumerations can get the stored blocks."
  },
  {
   "property": "C11",
   "status": "proved",
   "theorems": [
    "C11_balanced_stored",
    "C11_trickle_stored"
   ],
   "note": ""
  },
  {
   "property": "C110",
   "status": "proved",
   "theorems": [
    "C110_read",
    "C110_accessors",
    "C110_write",
    "C110_constructors",
    "C110_metadata"
   ],
   "note": "Grammar in Spec/Bytes.lean is independent of the model's codec; accessors stated for type numbers below 2^32 (larger ones are taken modulo 2^32 by C110_read)."
  },
  {
   "property": "C111",
   "status": "proved",
   "theorems": [
    "C111_written",
    "C111_read",
    "C111_unique",
    "C111_directory"
   ],
   "note": "SetCidBuilder between additions is excluded, as in C36: sub-shards made before keep the old builder (C94). The empty name is excluded (C44, C47)."
  },
  {
   "property": "C112",
   "status": "proved",
   "theorems": [
    "C112_balanced",
    "C112_balanced_empty",
    "C112_trickle",
    "C112_unique",
    "C112_read",
    "C112_sessions"
   ],
   "note": "The specification groups lists bottom-up and gives literal bytes; examples evaluate both layouts of three chunks to literal nodes."
  },
  {
   "property": "C113",
   "status": "proved",
   "theorems": [
    "C113_published"
   ],
   "note": "Examples: a HAMT with two levels of sub-shards is loaded, changed and written; a plain directory is loaded."
  },
  {
   "property": "C114",
   "status": "proved",
   "theorems": [
    "C114_resolve",
    "C114_open",
    "C114_imported",
    "C114_edited"
   ],
   "note": "Examples: a tree with a trickle file, a symbolic link, a plain directory and a HAMT; an import; a directory that is loaded, changed and becomes a HAMT."
  },
  {
   "property": "C115",
   "status": "proved",
   "theorems": [
    "C115_one_tree",
    "C115_made",
    "C115_sessions"
   ],
   "note": "One tree per node up to the order of entries; new directories under any history without a later SetCidBuilder, and files edited in sessions, are published."
  },
  {
   "property": "C116",
   "status": "proved",
   "theorems": [
    "C116_iff",
    "C116_same_node",
    "C116_form",
    "C116_imported",
    "C116_made"
   ],
   "note": "Node equality iff tree equality for fixed settings; imports and new directories under any history have that node. Whether a directory is a HAMT is settled by the caller (see C50)."
  },
  {
   "property": "C117",
   "status": "proved",
   "theorems": [
    "C117_links",
    "C117_size"
   ],
   "note": "All links and the size of directories, for all trees with settings."
  },
  {
   "property": "C118",
   "status": "proved",
   "theorems": [
    "C118_exists_unique"
   ],
   "note": "Existence and uniqueness for all settings that can be used."
  },
  {
   "property": "C119",
   "status": "proved",
   "theorems": [
    "C119_export",
    "C119_possible"
   ],
   "note": "An end-to-end theorem over file/unixfile.go, io/dagreader.go and io/directory.go: whoever copies a published tree out without an error has got it, and this is possible whenever the blocks of the tree can be fetched."
  },
  {
   "property": "C12",
   "status": "proved",
   "theorems": [
    "C12_balanced_no_truncation",
    "C12_trickle_no_truncation",
    "C12_balanced_errors",
    "C12_trickle_errors"
   ],
   "note": ""
  },
  {
   "property": "C120",
   "status": "proved",
   "theorems": [
    "C120_export",
    "C120_possible"
   ],
   "note": "From the first import over any number of editing sessions to the copy on the client's disk: KeptTree (C108, C109) on one side, Exports (C119) on the other."
  },
  {
   "property": "C121",
   "status": "proved",
   "theorems": [
    "C121_depth",
    "C121_open",
    "C121_read",
    "C121_iterate"
   ],
   "note": "The program is the relation Seen in Spec/Export.lean; the DAG is any node."
  },
  {
   "property": "C122",
   "status": "proved",
   "theorems": [
    "C122_writeTo",
    "C122_reads",
    "C122_same",
    "C122_refuses",
    "C122_skips"
   ],
   "note": "The DAG is any node that opens for reading; content is that of Spec/File.lean."
  },
  {
   "property": "C123",
   "status": "proved",
   "theorems": [
    "C123_same",
    "C123_again"
   ],
   "note": "The programs are the relation Copies in Spec/Export.lean; the DAG is any node."
  },
  {
   "property": "C124",
   "status": "proved",
   "theorems": [
    "C124_found_is_listed",
    "C124_listed_is_found",
    "C124_misplaced"
   ],
   "note": "The converse fails for malformed sharded directories, and C124_misplaced is a witness; for well-formed ones it is C35, C47 and C113."
  },
  {
   "property": "C125",
   "status": "proved",
   "theorems": [
    "C125_find",
    "C125_list",
    "C125_found_is_listed"
   ],
   "note": "C38 for arbitrary, also malformed, directories. Links is a call of the histories; its own answers under all schedules are C39."
  },
  {
   "property": "C126",
   "status": "proved",
   "theorems": [
    "C126_added_is_found",
    "C126_others_stay"
   ],
   "note": "Any loaded directory, malformed or not. The name added is not empty (see C44). C126_others_stay is for HAMTShardingSize 0: a change of form may pick another of two links with one name."
  },
  {
   "property": "C127",
   "status": "partial",
   "theorems": [
    "C127_removed_was_there",
    "C127_missing_is_told",
    "C127_removed_is_gone_partial",
    "C127_removed_is_gone_sharded",
    "C127_others_stay_partial",
    "C127_others_stay_sharded",
    "C127_found_again",
    "C127_other_renamed"
   ],
   "note": "The first two for any directory. That the name is gone: for directories that are not sharded, and for sharded ones with shards of one width that hold the name once; false of a name held twice (C127_found_again). That the others stay: for directories that are not sharded, and for sharded ones with shards of one width; false of two widths (C127_other_renamed)."
  },
  {
   "property": "C13",
   "status": "proved",
   "theorems": [
    "C13_balanced_terminates",
    "C13_trickle_terminates",
    "C13_balanced_diverges",
    "C13_trickle_diverges"
   ],
   "note": ""
  },
  {
   "property": "C14",
   "status": "proved",
   "theorems": [
    "C14_balanced_offsets",
    "C14_trickle_offsets",
    "C14_no_refs"
   ],
   "note": ""
  },
  {
   "property": "C15",
   "status": "proved",
   "theorems": [
    "C15_balanced_kind",
    "C15_balanced_empty",
    "C15_trickle_kind"
   ],
   "note": ""
  },
  {
   "property": "C16",
   "status": "proved",
   "theorems": [
    "C16_append_content",
    "C16_append_appendable",
    "C16_verified_appendable",
    "C16_history",
    "C16_append_to_leaf_loses_data",
    "C16_violated_always"
   ],
   "note": "All histories of Layout and Appends. The last theorem documents data loss when the base is not a trickle DAG. For files that are a single block with data, which Appendable excludes, the content is always lost (C16_violated_always)."
  },
  {
   "property": "C17",
   "status": "proved",
   "theorems": [
    "C17_append_sizes",
    "C16_history"
   ],
   "note": ""
  },
  {
   "property": "C18",
   "status": "partial",
   "theorems": [
    "C18_append_breaks_shape",
    "C18_append_breaks_shape_full",
    "C18_append_shape_partial"
   ],
   "note": "The code violates the property (new sub-graphs are built one level too deep when the root ends at a layer boundary); negation proved with witnesses, positive part proved for the remaining shallow cases."
  },
  {
   "property": "C19",
   "status": "proved",
   "theorems": [
    "C19_sequential_read",
    "C19_pieces"
   ],
   "note": "Any file DAG; recorded sizes irrelevant."
  },
  {
   "property": "C20",
   "status": "proved",
   "theorems": [
    "C20_flat_reader"
   ],
   "note": "Any history of Read/Seek/WriteTo on a truthful DAG refines a flat reader."
  },
  {
   "property": "C21",
   "status": "proved",
   "theorems": [
    "C21_size"
   ],
   "note": ""
  },
  {
   "property": "C22",
   "status": "proved",
   "theorems": [
    "C22_writeTo"
   ],
   "note": ""
  },
  {
   "property": "C23",
   "status": "proved",
   "theorems": [
    "C23_resume",
    "C23_reads_resume",
    "C23_delivered"
   ],
   "note": "Arbitrary network behaviour."
  },
  {
   "property": "C24",
   "status": "partial",
   "theorems": [
    "C24_seek_recovers_partial",
    "C24_failed_seek_corrupts",
    "C24_seek_does_not_recover"
   ],
   "note": "Violated by the code: after a Seek that fails for want of a block, a Seek to the still-reported offset is a no-op and wrong bytes are read. Negation proved; holds for every other target."
  },
  {
   "property": "C25",
   "status": "proved",
   "theorems": [
    "C25_accepts",
    "C25_reader",
    "C25_rejects"
   ],
   "note": ""
  },
  {
   "property": "C26",
   "status": "partial",
   "theorems": [
    "C26_seek_write_partial",
    "C26_writeAt_partial",
    "C26_history_partial",
    "C26_any_history_partial",
    "C26_violated",
    "C26_violated_always"
   ],
   "note": "False for a file that is a single leaf (C26_violated: writing past its end loses the content) and for some WriteAt histories (see C30). Proved: Seek+Write after any history of error-free calls on extensible files; Seek+Write and WriteAt on a new modifier within the length or on extensible files; every careful history acts as on an ordinary file, for any DAG service and splitter, up to the first failure outside the modifier. Ext: the DAG can be extended, which every trickle file and every balanced file of several chunks (at most 174 links per node), and the empty protobuf file can (C32_trickle, C32_balanced, C32_balanced_empty). C26_violated_always: on every single-block file, every write across its end."
  },
  {
   "property": "C27",
   "status": "partial",
   "theorems": [
    "C27_size_partial",
    "C27_careful_partial",
    "C27_violated"
   ],
   "note": "False for single-leaf files that are extended (C27_violated). Proved for every history of error-free calls on extensible files, and for careful histories on any file. Ext: the DAG can be extended, which every trickle file and every balanced file of several chunks (at most 174 links per node), and the empty protobuf file can (C32_trickle, C32_balanced, C32_balanced_empty)."
  },
  {
   "property": "C28",
   "status": "partial",
   "theorems": [
    "C28_truncate_partial",
    "C28_any_history_partial",
    "C28_violated",
    "C28_violated_always"
   ],
   "note": "False when a single-leaf file is extended (C28_violated). Proved: shortening any file; extending extensible files; both after any history of error-free calls on extensible files. Ext: the DAG can be extended, which every trickle file and every balanced file of several chunks (at most 174 links per node), and the empty protobuf file can (C32_trickle, C32_balanced, C32_balanced_empty). C28_violated_always: for every single-block file and every larger size."
  },
  {
   "property": "C29",
   "status": "partial",
   "theorems": [
    "C29_seek_write_partial",
    "C29_writeAt_partial",
    "C29_violated"
   ],
   "note": "False for single-leaf files (C29_violated). Proved for extensible files. Ext: the DAG can be extended, which every trickle file and every balanced file of several chunks (at most 174 links per node), and the empty protobuf file can (C32_trickle, C32_balanced, C32_balanced_empty)."
  },
  {
   "property": "C30",
   "status": "partial",
   "theorems": [
    "C30_ascending_partial",
    "C30_seek_first_partial",
    "C30_violated",
    "C30_violated_shorter"
   ],
   "note": "False: two witnesses. Proved: histories with ascending non-overlapping offsets, and arbitrary histories in which each WriteAt is preceded by a Seek to its offset. Missing: nothing more holds in general; the exact condition is Careful in Spec/ModFile.lean (C26_history_partial)."
  },
  {
   "property": "C31",
   "status": "partial",
   "theorems": [
    "C31_seek_current_partial",
    "C31_violated"
   ],
   "note": "False: Write after Read goes to the place of the last Write or Seek. Proved with a Seek(0, SeekCurrent) in between."
  },
  {
   "property": "C32",
   "status": "partial",
   "theorems": [
    "C32_append_partial",
    "C32_trickle",
    "C32_balanced",
    "C32_balanced_empty",
    "C32_violated",
    "C32_violated_always",
    "C32_raw_violated_always",
    "C32_balanced_one_violated_always"
   ],
   "note": "False for files of a single chunk made by balanced.Layout (content lost) and for raw roots (error). Proved for every trickle file, every balanced file of several chunks and the empty protobuf file. The failure is general: every single dag-pb block loses its content, every raw block gives an error, for all bytes, splitters and services (C32_violated_always, C32_raw_violated_always, C32_balanced_one_violated_always)."
  },
  {
   "property": "C33",
   "status": "proved",
   "theorems": [
    "C33_getNode_twice",
    "C33_sync_clean",
    "C33_truncate_same"
   ],
   "note": "After any history on any file with any DAG service."
  },
  {
   "property": "C34",
   "status": "proved",
   "theorems": [
    "C34_slices",
    "C34_exhausted"
   ],
   "note": "every byte string, every cursor, every list of positive widths"
  },
  {
   "property": "C35",
   "status": "proved",
   "theorems": [
    "C35_finite_map",
    "C35_find_last",
    "C35_enumerate",
    "C35_loaded"
   ],
   "note": "any hash with 8-byte results, any width, any fetch/add failures; non-empty names. Enumeration here is the sequential one of hamt.go forEachLink; the concurrent one is C39-C42"
  },
  {
   "property": "C36",
   "status": "proved",
   "theorems": [
    "C36_same_shape"
   ],
   "note": "histories that do not change the CID builder; they may have different network and store failures"
  },
  {
   "property": "C37",
   "status": "proved",
   "theorems": [
    "C37_round_trip"
   ],
   "note": ""
  },
  {
   "property": "C38",
   "status": "proved",
   "theorems": [
    "C38_lazy"
   ],
   "note": ""
  },
  {
   "property": "C39",
   "status": "proved",
   "theorems": [
    "C39_complete",
    "C39_any_shard"
   ],
   "note": "every schedule of n workers, dispatcher and consumer; histories of operations (exactly once) and arbitrary shards (exactly the entries)"
  },
  {
   "property": "C40",
   "status": "proved",
   "theorems": [
    "C40_bounded",
    "C40_no_deadlock",
    "C40_finishes"
   ],
   "note": "bound independent of schedule, failures, cancellation and of a consumer that stops early"
  },
  {
   "property": "C41",
   "status": "proved",
   "theorems": [
    "C41_reported",
    "C41_cause"
   ],
   "note": "any missing or malformed part, any schedule; errors are never invented"
  },
  {
   "property": "C42",
   "status": "partial",
   "theorems": [
    "C42_violated",
    "C42_only_cancelled_partial",
    "C42_prefix_partial"
   ],
   "note": "the code violates it: a cancelled enumeration can end without an error and with a shortened list (C42_violated, for every shard). Proved: this happens only after a cancellation, and the list received is always a duplicate-free part of the directory"
  },
  {
   "property": "C43",
   "status": "proved",
   "theorems": [
    "C43_link_names",
    "C55_format"
   ],
   "note": ""
  },
  {
   "property": "C44",
   "status": "partial",
   "theorems": [
    "C44_empty_name_lost",
    "C44_found_partial"
   ],
   "note": "violated for the empty name (C44_empty_name_lost: any hash, any node); proved for all other names"
  },
  {
   "property": "C45",
   "status": "proved",
   "theorems": [
    "C45_collision"
   ],
   "note": ""
  },
  {
   "property": "C46",
   "status": "proved",
   "theorems": [
    "C46_basic_map",
    "C46_basic_run",
    "C46_basic_find",
    "C46_dynamic",
    "C46_duplicates"
   ],
   "note": "Any history with any names on a never-sharded directory; C46_dynamic: also whenever a directory that may be sharded is basic. Names in the loaded node must be unique; C46_duplicates shows that the estimate is wrong otherwise."
  },
  {
   "property": "C47",
   "status": "proved",
   "theorems": [
    "C47_finite_map",
    "C47_find_last",
    "C47_links_last",
    "C47_empty_name_lost"
   ],
   "note": "Every call of every history acts on a plain map, across all switches, thresholds, failures and schedules. Names are non-empty; an entry with the empty name is lost at a switch (C47_empty_name_lost, see C44)."
  },
  {
   "property": "C48",
   "status": "partial",
   "theorems": [
    "C48_basic_below_partial",
    "C48_cancelled_violated"
   ],
   "note": "Holds if no caller cancels; if the context of a removal is cancelled during the enumeration, the directory becomes basic above the threshold (C48_cancelled_violated)."
  },
  {
   "property": "C49",
   "status": "proved",
   "theorems": [
    "C49_schedule_independent",
    "C49_same_answer"
   ],
   "note": "sizeBelowThreshold answers by the total size of the entries, under every schedule of the parallel walk."
  },
  {
   "property": "C50",
   "status": "partial",
   "theorems": [
    "C50_violated",
    "C50_after_load_partial"
   ],
   "note": "Violated: two histories with the same entries end in different forms with different nodes. Holds after a removal if nothing was added since the directory was loaded."
  },
  {
   "property": "C51",
   "status": "proved",
   "theorems": [
    "C51_plain",
    "C51_directory",
    "C51_sound"
   ],
   "note": "Plain nodes: the first link with the name. Any directory history and both forms: the entry of the map. Any HAMT node, also a malformed one: a returned link is an entry with that name. The link that is returned for a HAMT still carries the index digits in front of its name, as in the code."
  },
  {
   "property": "C52",
   "status": "proved",
   "theorems": [
    "C52_file",
    "C52_dir",
    "C52_symlink",
    "C52_symlink_roundtrip",
    "C52_file_content",
    "C52_directory",
    "C52_no_panic"
   ],
   "note": "Exact characterisation for every node, composition with reader and directory, and absence of panics."
  },
  {
   "property": "C53",
   "status": "proved",
   "theorems": [
    "C53_in_order",
    "C53_complete",
    "C53_error",
    "C53_sticky",
    "C53_ends",
    "C53_all",
    "C53_next_returns",
    "C53_directory"
   ],
   "note": "All interleavings of the producer goroutine, the client and a cancellation. ForEachLink is a list of links and a final error; forEach_stop proves that this is what it does for every function passed to it."
  },
  {
   "property": "C54",
   "status": "proved",
   "theorems": [
    "C54_logtwo",
    "C54_widths"
   ],
   "note": ""
  },
  {
   "property": "C55",
   "status": "proved",
   "theorems": [
    "C55_format",
    "C55_positions"
   ],
   "note": ""
  },
  {
   "property": "C56",
   "status": "proved",
   "theorems": [
    "C56_balanced_tsize",
    "C56_trickle_tsize",
    "C56_balanced_bytes",
    "C56_trickle_bytes"
   ],
   "note": ""
  },
  {
   "property": "C57",
   "status": "proved",
   "theorems": [
    "C57_append_no_truncation",
    "C57_append_errors",
    "C57_append_terminates",
    "C57_append_not_proto"
   ],
   "note": ""
  },
  {
   "property": "C58",
   "status": "proved",
   "theorems": [
    "C58_append_stored"
   ],
   "note": ""
  },
  {
   "property": "C59",
   "status": "partial",
   "theorems": [
    "C59_writer_failure_partial",
    "C59_failed_writer_skews_offset"
   ],
   "note": "Violated by the code in the reported offset; the delivered bytes and the continuation are proved right."
  },
  {
   "property": "C60",
   "status": "proved",
   "theorems": [
    "C60_terminates"
   ],
   "note": ""
  },
  {
   "property": "C61",
   "status": "proved",
   "theorems": [
    "C61_no_needless_subshard"
   ],
   "note": ""
  },
  {
   "property": "C62",
   "status": "proved",
   "theorems": [
    "C62_stored",
    "C62_stored_partial",
    "C62_careful_partial"
   ],
   "note": "C62_stored: every file, every DAG service, every history without an error (hypothesis: the splitter does not report io.EOF as an error)."
  },
  {
   "property": "C63",
   "status": "partial",
   "theorems": [
    "C63_retry_partial",
    "C63_violated",
    "C63_violated_put",
    "C63_violated_truncate"
   ],
   "note": "False: three witnesses, one for a failed fetch, one for a failed store, one for a Truncate repeated after a failed store. Proved: after careful calls, a Seek and Writes, any number of Syncs that could not fetch a block and stored none do no harm. Missing (and false): Syncs that had stored something before they failed, or failed to store."
  },
  {
   "property": "C64",
   "status": "partial",
   "theorems": [
    "C64_seek_start_partial",
    "C26_history_partial",
    "C64_violated"
   ],
   "note": "False for SeekEnd with an offset other than 0 and for negative positions (C64_violated). Proved: Seek from the start after any error-free history; SeekStart, SeekCurrent and Seek(0, SeekEnd) in careful histories (FileStep.seek)."
  },
  {
   "property": "C65",
   "status": "partial",
   "theorems": [
    "C65_truncate_read_partial",
    "C26_history_partial",
    "C65_violated"
   ],
   "note": "False if a reader is open (C65_violated). Proved without an open reader, on a new modifier and in careful histories."
  },
  {
   "property": "C66",
   "status": "proved",
   "theorems": [
    "C66_same_node"
   ],
   "note": "Positive counterpart of C50: with the same entries, the same form and the same CID builder the encoded nodes are the same."
  },
  {
   "property": "C67",
   "status": "partial",
   "theorems": [
    "C67_no_panic_partial",
    "C67_violated"
   ],
   "note": "Violated for the empty path on a HAMT node (names[0] is evaluated unguarded). Proved for every non-empty path and every node."
  },
  {
   "property": "C68",
   "status": "partial",
   "theorems": [
    "C68_ends_partial",
    "C68_violated"
   ],
   "note": "Violated: after an open error with more than four further links the goroutine stays blocked on the channel unless the context is cancelled. Proved when the context is cancelled, when iteration was complete, or with at most four links."
  },
  {
   "property": "C69",
   "status": "partial",
   "theorems": [
    "C69_load",
    "C69_reads_partial",
    "C69_consistent_partial",
    "C69_violated"
   ],
   "note": "Violated for Set and Node: a bitfield with more bits than links gives an index out of range. Proved for loading and all sequences of lookups, iterations and removals on any loaded node; for all sequences of all calls on nodes whose shards agree in width, have at least as many links as bits and names that hold the index digits."
  },
  {
   "property": "C70",
   "status": "proved",
   "theorems": [
    "C70_append_keeps_blocks"
   ],
   "note": "Leaves that hold no byte (the leaf of an empty chunk) are not counted as data blocks."
  },
  {
   "property": "C71",
   "status": "proved",
   "theorems": [
    "C71_write_shares",
    "C71_writeAt_shares"
   ],
   "note": "Seek and Write after any history; WriteAt on a new modifier (C30/C31 describe what else a WriteAt after other calls does)."
  },
  {
   "property": "C72",
   "status": "proved",
   "theorems": [
    "C72_truncate_shares"
   ],
   "note": "After any history of calls."
  },
  {
   "property": "C73",
   "status": "proved",
   "theorems": [
    "C73_balanced",
    "C73_trickle",
    "C73_append"
   ],
   "note": "Prefixes of the stores of an import that succeeds."
  },
  {
   "property": "C74",
   "status": "partial",
   "theorems": [
    "C74_modifier_partial",
    "C74_no_error_partial",
    "C74_violated"
   ],
   "note": "Every history and every failure, except that the DAG service must refuse no block that Append hands to it (AppendsStored); every history without an error. After such a refusal the code does leave a link to a block that is not stored (C74_violated)."
  },
  {
   "property": "C75",
   "status": "proved",
   "theorems": [
    "C75_directory",
    "C75_new",
    "C75_getNode"
   ],
   "note": "All histories, all failures, both forms."
  },
  {
   "property": "C76",
   "status": "proved",
   "theorems": [
    "C76_entries",
    "C76_error",
    "C76_basic_bounded",
    "C76_basic_no_deadlock",
    "C76_basic_order",
    "C76_leak",
    "C76_finishes",
    "C76_silent_violated"
   ],
   "note": "Both forms of a directory, every schedule. C76_silent_violated: with a cancelled context a basic directory can end after any prefix with no error (same defect as C42). C76_leak: a caller that leaves without cancelling leaks the goroutine. Changes of the directory during the enumeration are not modelled."
  },
  {
   "property": "C77",
   "status": "proved",
   "theorems": [
    "C77_balanced",
    "C77_trickle",
    "C77_build_dag",
    "C77_build_trickle_dag",
    "C77_build_dag_whole",
    "C77_build_trickle_dag_whole",
    "C77_only_own_blocks"
   ],
   "note": "chunks within the 1 MiB limit; total size below 2^63"
  },
  {
   "property": "C78",
   "status": "proved",
   "theorems": [
    "C78_range",
    "C78_prefix"
   ],
   "note": "for readers just opened; the prefetcher is assumed to be handed every block that is available even when others of the same batch are missing"
  },
  {
   "property": "C79",
   "status": "proved",
   "theorems": [
    "C79_only_path",
    "C79_lost_elsewhere",
    "C79_fetches"
   ],
   "note": "calls on single names, Node and SetCidBuilder; enumeration and reloading need all shards by nature"
  },
  {
   "property": "C80",
   "status": "proved",
   "theorems": [
    "C80_shared",
    "C80_few_new"
   ],
   "note": "names are not empty (C44)"
  },
  {
   "property": "C81",
   "status": "proved",
   "theorems": [
    "C81_balanced_aligned",
    "C81_balanced_one",
    "C81_balanced_append",
    "C81_trickle_aligned",
    "C81_trickle_one",
    "C81_trickle_append"
   ],
   "note": "for both layouts; imports that succeed; heights and shapes unbounded"
  },
  {
   "property": "C82",
   "status": "partial",
   "theorems": [
    "C82_no_panic_partial",
    "C82_violated"
   ],
   "note": "violated by negative positions; proved for the next call after any fine history on an extensible file"
  },
  {
   "property": "C83",
   "status": "proved",
   "theorems": [
    "C83_resolve",
    "C83_resolve_works",
    "C83_open",
    "C83_storable"
   ],
   "note": "composes C06-C08, C46-C52, C56; the loop over path components is the client's"
  },
  {
   "property": "C84",
   "status": "partial",
   "theorems": [
    "C84_violated",
    "C84_same_results",
    "C84_surface_partial",
    "C84_frozen_partial",
    "C84_clean_partial",
    "C84_append_partial"
   ],
   "note": "False as stated: the node given to NewDagModifier, and nodes returned by GetNode, share link objects with the modifier and read as the new content after an overwrite is flushed (C84_violated). Proved for all histories: data, number, names and sizes of links never change; once a pending write has been flushed, nodes held before never change again; without pending writes only Write and WriteAt can change a node held; appending after a move to the end changes no node held. Missing: that overwriting changes no node held, which is false."
  },
  {
   "property": "C85",
   "status": "proved",
   "theorems": [
    "Unixfs.Props.C85_trickle_any",
    "Unixfs.Props.C85_balanced_any",
    "Unixfs.Props.C85_trickle_inside",
    "Unixfs.Props.C85_balanced_inside",
    "Unixfs.Props.C85_trickle_restore",
    "Unixfs.Props.C85_balanced_restore"
   ],
   "note": "Histories without Truncate and without errors. The any-history form needs a file that can be extended (C32: trickle, or balanced with two chunks or more); the inside form covers all non-empty files."
  },
  {
   "property": "C86",
   "status": "partial",
   "theorems": [
    "C86_links_shown",
    "C86_node_shown",
    "C86_encode_order",
    "C86_node_violated",
    "C86_links_violated",
    "C86_links_violated_add",
    "C86_links_violated_encode",
    "C86_loop_violated",
    "C86_loop_violated_always",
    "C86_links_partial",
    "C86_hamt_partial",
    "C86_reload_partial",
    "C86_given",
    "C86_live",
    "C86_loop_partial"
   ],
   "note": "Violated by plain directories, which hand out their own node and its slice of links (witnesses, and a general theorem about loops that remove entries). Proved: the snapshot property for HAMTs, after reloading, for nodes given to NewDirectoryFromNode, and for lists and loops as long as no entry is removed or replaced and no node is encoded."
  },
  {
   "property": "C87",
   "status": "proved",
   "theorems": [
    "C87_open",
    "C87_no_panic",
    "C87_read",
    "C87_writeTo"
   ],
   "note": "All nodes, networks and histories."
  },
  {
   "property": "C88",
   "status": "partial",
   "theorems": [
    "C88_append_violated",
    "C88_verify_violated",
    "C88_modifier_violated",
    "C88_later_violated",
    "C88_append_partial",
    "C88_verify",
    "C88_truncate_partial",
    "C88_writeAt_partial",
    "C88_shorten_partial"
   ],
   "note": "The code panics on some malformed files (violated theorems), also in a second call on a file on which no first Truncate panics (C88_later_violated). Proved: no panic of Append for files with a link for every size, of VerifyTrickleDagStructure with LayerRepeat > 0, of the first Truncate/WriteAt+Sync on files that keep what their sizes promise, and of any number of calls that only shorten and read such files when no node with links has data. Missing: later writes, writes past the recorded size."
  },
  {
   "property": "C89",
   "status": "proved",
   "theorems": [
    "C89_balanced",
    "C89_trickle",
    "C89_balanced_default",
    "C89_trickle_default"
   ],
   "note": ""
  },
  {
   "property": "C90",
   "status": "proved",
   "theorems": [
    "C90_hamt",
    "C90_hamt_default",
    "C90_basic",
    "C90_basic_default"
   ],
   "note": "The bound on basic directories is stated for histories in which no caller cancels; C48_cancelled_violated shows that a cancelled call can leave a basic directory above the threshold."
  },
  {
   "property": "C91",
   "status": "proved",
   "theorems": [
    "C91_balanced_nodes",
    "C91_trickle_nodes",
    "C91_balanced_bytes",
    "C91_trickle_bytes",
    "C91_balanced_default",
    "C91_trickle_default"
   ],
   "note": "Number of blocks with links and total encoded bytes of balanced and trickle imports; the bound of the trickle layout is attained in the example."
  },
  {
   "property": "C92",
   "status": "proved",
   "theorems": [
    "C92_write",
    "C92_overwrite",
    "C92_append",
    "C92_truncate",
    "C57_append_terminates"
   ],
   "note": "Overlaps, BesideCut (Spec/Range.lean) and OnSpine (Spec/Append.lean) name the blocks. C57_append_terminates is trickle.Append. For extending, the file must be one that can be extended at all (Ext, see C32)."
  },
  {
   "property": "C93",
   "status": "proved",
   "theorems": [
    "C93_write",
    "C93_overwrite",
    "C93_append",
    "C93_truncate",
    "C93_trickle_append",
    "C93_balanced"
   ],
   "note": "Bounds on the number of blocks stored (and of requests, for a write within the file) by a successful edit; a whole trickle.Append counts as one request in the model, so requests are bounded only for writes within the file."
  },
  {
   "property": "C94",
   "status": "proved",
   "theorems": [
    "C94_root",
    "C94_new",
    "C94_shards",
    "C94_only_root"
   ],
   "note": "The documentation of SetCidBuilder speaks of the root node only; C94_only_root says so for every state, with an example in which a sub-shard keeps the old builder. For all shards to have the builder it has to be set before there are entries (C94_shards)."
  },
  {
   "property": "C95",
   "status": "proved",
   "theorems": [
    "C95_stored",
    "C95_getNode",
    "C95_append"
   ],
   "note": "All blocks that a modifier stores or returns have the CID version and hash function of the file, in every environment, with what failed appends leave behind."
  },
  {
   "property": "C96",
   "status": "partial",
   "theorems": [
    "C96_plain_partial",
    "C96_raw_partial",
    "C96_violated_v0",
    "C96_violated_v1"
   ],
   "note": "False in general: the format of new leaves follows the CID version of the root (two witnesses). Proved for CIDv0 files without raw blocks and for other files with raw leaves only."
  },
  {
   "property": "C97",
   "status": "proved",
   "theorems": [
    "C97_trickle",
    "C97_any",
    "C97_balanced"
   ],
   "note": "Of modifier histories AppendsStored is assumed: the DAG service refuses no block that Append inside the modifier hands to it. All other failures are covered."
  },
  {
   "property": "C98",
   "status": "proved",
   "theorems": [
    "C98_trickle",
    "C98_balanced",
    "C98_trickle_default",
    "C98_balanced_default"
   ],
   "note": "All histories of appends and modifiers on files made by the importers in which the DAG service refuses no block that Append inside a modifier hands to it (AppendsStored); all other failures are covered."
  },
  {
   "property": "C99",
   "status": "partial",
   "theorems": [
    "C99_append_partial",
    "C99_resize_partial",
    "C99_repeat_partial",
    "C99_violated",
    "C99_violated_append"
   ],
   "note": "False when the DAG service refuses a block that Append hands to it, or when the source of Append fails (witnesses). Proved: every sequence of Truncate and absolute Seek, with any failing fetches and refused roots; every Append whose chunks fit, whose source does not fail and whose blocks are accepted."
  }
 ]
}