import Verif.Props.Dictionary
import Verif.Props.LargeDictionary
import Verif.Props.Completions
import Verif.Props.Bits
import Verif.Props.CompactVector
import Verif.Props.Sequences
import Verif.Props.Trie
import Verif.Props.PostingLists
import Verif.Props.UncompressedList
import Verif.Props.InvertedIndex
import Verif.Props.ForwardIndex
import Verif.Props.Heap
import Verif.Props.RankSelect
import Verif.Props.ExcessRmq
import Verif.Props.Parens
import Verif.Props.Rmq
import Verif.Props.TopK
import Verif.Props.UnionTopK
import Verif.Props.Parse
import Verif.Props.Prefix
import Verif.Props.Conjunctive
import Verif.Props.Answers
import Verif.Props.Answers4
import Verif.Props.AnswersAny
import Verif.Props.Limits
import Verif.Props.Build
import Verif.Model.Autocomplete4
import Verif.Props.BlockedIndex
import Verif.Props.Type4
import Verif.Props.Words
import Verif.Props.WebServer
import Verif.Props.Saved
import Verif.Props.Library
import Verif.Props.Threads
import Verif.Props.Text
import Verif.Proofs.Cut
import Verif.Proofs.Beyond
import Verif.Proofs.Beyond4
import Verif.Props.Beyond
import Verif.Model.Float32
import Verif.Model.Tools
import Verif.Model.Programs
import Verif.Spec.Tools
import Verif.Proofs.Float32
import Verif.Proofs.Tools
import Verif.Proofs.QueryFiles
import Verif.Proofs.Programs
import Verif.Proofs.Effect
import Verif.Props.Tools
import Verif.Props.Programs
import Verif.Model.BlockSize
import Verif.Proofs.BlockSize
import Verif.Props.BlockSize
import Verif.Model.Sizes
import Verif.Proofs.Fits
import Verif.Proofs.Counts
import Verif.Spec.Sizes
import Verif.Props.Sizes
import Verif.Model.Deploy
import Verif.Proofs.Deploy
import Verif.Props.Deploy
import Verif.Model.Unicode
import Verif.Spec.Unicode
import Verif.Proofs.Unicode
import Verif.Proofs.UnicodeText
import Verif.Proofs.LongTerms
import Verif.Props.Unicode
import Verif.Model.WebPage
import Verif.Spec.WebPage
import Verif.Proofs.WebPage
import Verif.Props.WebPage
import Verif.Spec.Lossy
import Verif.Proofs.LossyDict
import Verif.Proofs.LossyPrefix
import Verif.Proofs.LossyConj
import Verif.Proofs.LossyBuild
import Verif.Proofs.Lossy4
import Verif.Proofs.SmallApi
import Verif.Props.Multiple17
import Verif.Proofs.LostCompletions
import Verif.Props.LostCompletions
import Verif.Proofs.BothLost
import Verif.Props.BothLost
import Verif.Spec.Honest
import Verif.Props.Honest
import Verif.Spec.Lossy4
import Verif.Proofs.Lossy4Exact
import Verif.Props.Type4Multiple17
import Verif.Model.Benchmarks
import Verif.Spec.Benchmarks
import Verif.Proofs.Benchmarks
import Verif.Proofs.Lookups
import Verif.Props.Benchmarks
import Verif.Props.Lookups
import Verif.Model.BucketSize
import Verif.Proofs.BucketSize
import Verif.Proofs.FcBucketSize
import Verif.Proofs.IntBucketSize
import Verif.Proofs.BucketSizeLoss
import Verif.Props.BucketSize
import Verif.Model.DictBench
import Verif.Model.DictScript
import Verif.Spec.DictBench
import Verif.Spec.DictScript
import Verif.Proofs.BucketPast
import Verif.Proofs.DictBench
import Verif.Props.DictBench
import Verif.Props.DictScript
import Verif.Model.Tests
import Verif.Spec.Tests
import Verif.Proofs.TestsCommon
import Verif.Proofs.TestsDict
import Verif.Proofs.TestsIndex
import Verif.Proofs.TestsInverted
import Verif.Proofs.TestsBlocked
import Verif.Proofs.TestsUnsorted
import Verif.Props.Tests
import Verif.Spec.Space
import Verif.Proofs.SpaceEf
import Verif.Proofs.SpaceRmq
import Verif.Proofs.SpaceFc
import Verif.Proofs.SpaceIdx
import Verif.Proofs.SpaceBlk
import Verif.Proofs.SpaceTrie
import Verif.Props.Space
import Verif.Spec.TextPrefix
import Verif.Proofs.TextPrefix
import Verif.Props.TextPrefix
import Verif.Model.TestsSearch
import Verif.Spec.TestsSearch
import Verif.Proofs.TestsSearch
import Verif.Props.TestsSearch
import Verif.Model.Installed
import Verif.Proofs.Installed
import Verif.Props.Installed
import Verif.Spec.Typing
import Verif.Proofs.Typing
import Verif.Props.Typing
import Verif.Props.Typing4
import Verif.Props.Collect
import Verif.Model.Filtered
import Verif.Props.Filtered
import Verif.Props.BitsIterator
import Verif.Props.DebugBench
import Verif.Props.DebugDict
import Verif.Props.DebugSearch
import Verif.Props.DebugType4
import Verif.Model.Scripts
import Verif.Proofs.Scripts
import Verif.Props.Scripts
import Verif.Model.DebugStore
import Verif.Proofs.DebugStoreList
import Verif.Proofs.DebugStoreSeq
import Verif.Props.DebugStore
import Verif.Model.DebugRmq
import Verif.Proofs.DebugRmq
import Verif.Proofs.DebugRmqSearch
import Verif.Proofs.DebugRmqTree
import Verif.Props.DebugRmq
import Verif.Model.DebugParens
import Verif.Proofs.DebugParens
import Verif.Props.DebugParens
import Verif.Model.DebugAll
import Verif.Proofs.DebugAllStore
import Verif.Proofs.DebugAllLists
import Verif.Proofs.DebugAllTrie
import Verif.Proofs.DebugAllIndex
import Verif.Props.DebugAll
import Verif.Model.DebugAll4
import Verif.Proofs.DebugAll4Build
import Verif.Proofs.DebugAll4
import Verif.Props.DebugAll4
import Verif.Proofs.DebugAll17
import Verif.Props.DebugAll17
import Verif.Model.Example
import Verif.Proofs.Example
import Verif.Props.Example
import Verif.Props.ExampleExact
import Verif.Proofs.Eats
import Verif.Proofs.FileBound
import Verif.Proofs.FileBound1
import Verif.Props.IndexFile
import Verif.Spec.StrictWeak
import Verif.Model.CartesianTreeAny
import Verif.Proofs.CartesianTreeAny
import Verif.Props.RmqAny
import Verif.Spec.Removal
import Verif.Proofs.Removal
import Verif.Props.Removal
import Verif.Spec.Renumber
import Verif.Proofs.Renumber
import Verif.Props.Renumber
import Verif.Spec.Shards
import Verif.Props.Shards
import Verif.Proofs.Renumber4
import Verif.Props.Renumber4
import Verif.Spec.Linear
import Verif.Proofs.FileLinear
import Verif.Proofs.BuildStd
import Verif.Props.Linear
import Verif.Spec.Letters
import Verif.Proofs.Letters
import Verif.Proofs.LettersOrder
import Verif.Props.Letters
import Verif.Proofs.LettersBlocks
import Verif.Props.LettersBlocks
import Verif.Spec.Fingerprint
import Verif.Proofs.Fingerprint
import Verif.Props.Fingerprint
import Verif.Proofs.FingerprintLost
import Verif.Props.FingerprintLost
import Verif.Spec.Drill
import Verif.Props.Drill
