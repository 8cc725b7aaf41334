import Verif.Basic
import Verif.Pb.Varint
import Verif.Pb.Message
import Verif.Pb.RoundTrip
import Verif.Pb.Decode
import Verif.Pb.WireSpec
import Verif.FSNode
import Verif.Dag
import Verif.Spec.Wire
import Verif.Spec.FSNode
import Verif.Props.Format
import Verif.Import.Helpers
import Verif.Import.Balanced
import Verif.Import.Trickle
import Verif.Import.Fail
import Verif.Import.FailLemmas
import Verif.Import.FailKin
import Verif.Import.FailCrash
import Verif.Import.FailCost
import Verif.Import.FailSame
import Verif.Mod.Left
import Verif.Import.Tree
import Verif.Import.Source
import Verif.Import.TreeLemmas
import Verif.Import.BalancedLemmas
import Verif.Import.TrickleLemmas
import Verif.Import.VerifyLemmas
import Verif.Import.Diverge
import Verif.Spec.File
import Verif.Spec.Import
import Verif.Props.Import
import Verif.Spec.Append
import Verif.Import.AppendLemmas
import Verif.Import.AppendShape
import Verif.Props.Append
import Verif.Reader.Walker
import Verif.Reader.DagReader
import Verif.Spec.Reader
import Verif.Reader.Lemmas
import Verif.Reader.WriteSeek
import Verif.Reader.Inv
import Verif.Reader.Run
import Verif.Reader.Terminate
import Verif.Props.Reader
import Verif.Hamt.HashBits
import Verif.Hamt.Bitfield
import Verif.Hamt.Shard
import Verif.Hamt.Trie
import Verif.Hamt.TrieSwap
import Verif.Hamt.TrieCanon
import Verif.Hamt.Rep
import Verif.Hamt.Sim
import Verif.Hamt.SimNode
import Verif.Spec.Hamt
import Verif.Hamt.Hist
import Verif.Hamt.Lazy
import Verif.Hamt.PropLemmas
import Verif.Props.Hamt
import Verif.Hamt.Local
import Verif.Hamt.Share
import Verif.Props.HamtLocal
import Verif.Hamt.Walk
import Verif.Spec.Walk
import Verif.Hamt.WalkSum
import Verif.Hamt.WalkCtl
import Verif.Hamt.WalkTerm
import Verif.Hamt.WalkInv
import Verif.Hamt.WalkMap
import Verif.Props.Walk
import Verif.Spec.Mod
import Verif.Mod.DagModifier
import Verif.Spec.ModFile
import Verif.Mod.Lemmas
import Verif.Mod.DagLemmas
import Verif.Mod.FileLemmas
import Verif.Mod.Flat
import Verif.Mod.Hist
import Verif.Mod.Any
import Verif.Mod.Retry
import Verif.Props.Mod
import Verif.Dir.Directory
import Verif.Spec.Dir
import Verif.Dir.Lemmas
import Verif.Dir.Enum
import Verif.Dir.HamtForm
import Verif.Dir.Hist
import Verif.Props.Dir
import Verif.File.Resolve
import Verif.File.Unixfile
import Verif.Spec.Unixfile
import Verif.File.IterLemmas
import Verif.File.Robust
import Verif.File.Consist
import Verif.Props.File
import Verif.Props.Robust
import Verif.Spec.Edit
import Verif.Mod.Edit
import Verif.Props.Edit
import Verif.Spec.Crash
import Verif.Import.Crash
import Verif.Mod.Crash
import Verif.Mod.Stored
import Verif.Dir.Crash
import Verif.Props.Crash
import Verif.Dir.Async
import Verif.Props.DirAsync
import Verif.Spec.Range
import Verif.Reader.Local
import Verif.Import.Importer
import Verif.Props.Range
import Verif.Spec.Blocks
import Verif.Import.Fill
import Verif.Import.Grow
import Verif.Props.Dedup
import Verif.Mod.Panic
import Verif.Props.ModPanic
import Verif.Spec.Tree
import Verif.Props.Tree
import Verif.Mod.Alias
import Verif.Mod.AliasLemmas
import Verif.Props.Alias
import Verif.Mod.Recut
import Verif.Props.Recut
import Verif.Dir.Alias
import Verif.Spec.DirAlias
import Verif.Dir.AliasLemmas
import Verif.Props.DirAlias
import Verif.Reader.Contract
import Verif.Import.Calm
import Verif.Spec.Malformed
import Verif.Mod.Malformed
import Verif.Mod.Shrink
import Verif.Props.Malformed
import Verif.Spec.Encode
import Verif.Import.BlockLen
import Verif.Props.BlockSize
import Verif.Import.Overhead
import Verif.Props.Overhead
import Verif.Import.AppendLeaf
import Verif.Mod.SingleBlock
import Verif.Props.SingleBlock
import Verif.Dir.BlockLen
import Verif.Props.DirBlockSize
import Verif.Mod.Need
import Verif.Props.EditRange
import Verif.Spec.Cost
import Verif.Import.Cost
import Verif.Mod.Cost
import Verif.Props.EditCost
import Verif.Spec.DirBuilder
import Verif.Dir.Builder
import Verif.Props.DirBuilder
import Verif.Spec.Kin
import Verif.Import.Kin
import Verif.Mod.Kin
import Verif.Props.Kin
import Verif.Spec.Grown
import Verif.Import.Loose
import Verif.Mod.Loose
import Verif.Props.Grown
import Verif.Import.Closed
import Verif.Mod.Tidy
import Verif.Props.GrownBlocks
import Verif.Spec.Extend
import Verif.Mod.Extend
import Verif.Props.Extend
import Verif.Spec.TrickleShape
import Verif.Import.VerifyShape
import Verif.Props.Verify
import Verif.Mod.Shorten
import Verif.Props.Shorten
import Verif.Spec.AppendSame
import Verif.Import.AppendSame
import Verif.Props.AppendSame
import Verif.Mod.Lengthen
import Verif.Props.Lengthen
import Verif.Hamt.Mem
import Verif.Props.HamtCost
import Verif.Spec.DirGrow
import Verif.Dir.Grow
import Verif.Props.DirGrow
import Verif.Spec.Sessions
import Verif.Props.Sessions
import Verif.Spec.Access
import Verif.Reader.Access
import Verif.Props.Access
import Verif.Spec.Kept
import Verif.Props.Kept
import Verif.Dir.Held
import Verif.Mod.Names
import Verif.Spec.KeptTree
import Verif.Props.KeptTree
import Verif.Spec.Bytes
import Verif.Pb.Grammar
import Verif.Props.Bytes
import Verif.Spec.Published
import Verif.Hamt.Published
import Verif.Props.Published
import Verif.Spec.FileForm
import Verif.Import.Form
import Verif.Props.FileForm
import Verif.Spec.DirPublished
import Verif.Props.DirPublished
import Verif.Spec.TreePublished
import Verif.Props.TreePublished
import Verif.Spec.OneTree
import Verif.Props.OneTree
import Verif.Spec.Settled
import Verif.Props.Settled
import Verif.Props.TreeSize
import Verif.Props.TreeExists
import Verif.Props.Export
import Verif.Props.AnyDag
import Verif.Reader.Whole
import Verif.Props.Whole
import Verif.Props.SameCopy
import Verif.Props.Listed
import Verif.Props.Asked
import Verif.Props.AddAny
import Verif.Props.RemoveAny
import Verif.Props.RemoveOthers
import Verif.Props.RemoveGone
