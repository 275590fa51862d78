import Verif.Lemmas.Abugida
import Verif.Lemmas.Batch
import Verif.Lemmas.Bpe
import Verif.Lemmas.BpeDet
import Verif.Lemmas.BpeHeap
import Verif.Lemmas.BpeIndex
import Verif.Lemmas.BpeMem
import Verif.Lemmas.BpeNames
import Verif.Lemmas.BpePass
import Verif.Lemmas.BpeRun
import Verif.Lemmas.BpeSpec
import Verif.Lemmas.BpeStep
import Verif.Lemmas.BpeText
import Verif.Lemmas.BpeppLearn
import Verif.Lemmas.BpeppPass
import Verif.Lemmas.BpeppRuns
import Verif.Lemmas.BpeppText
import Verif.Lemmas.Byte
import Verif.Lemmas.Bytes
import Verif.Lemmas.Chars
import Verif.Lemmas.Cli
import Verif.Lemmas.Cost
import Verif.Lemmas.Db
import Verif.Lemmas.DbRows
import Verif.Lemmas.Decimal
import Verif.Lemmas.Dict
import Verif.Lemmas.Eval
import Verif.Lemmas.File
import Verif.Lemmas.Greedy
import Verif.Lemmas.Heapq
import Verif.Lemmas.Json
import Verif.Lemmas.JsonText
import Verif.Lemmas.Learn
import Verif.Lemmas.LearnOrder
import Verif.Lemmas.Mapred
import Verif.Lemmas.Multipart
import Verif.Lemmas.MultipartRead
import Verif.Lemmas.Nearest
import Verif.Lemmas.Np
import Verif.Lemmas.Number
import Verif.Lemmas.Quality
import Verif.Lemmas.Replace
import Verif.Lemmas.Rounding
import Verif.Lemmas.Scheme
import Verif.Lemmas.Shrink
import Verif.Lemmas.Skip
import Verif.Lemmas.Spark
import Verif.Lemmas.SparkCount
import Verif.Lemmas.Splits
import Verif.Lemmas.Str
import Verif.Lemmas.Track
import Verif.Lemmas.Trie
import Verif.Lemmas.TrieCount
import Verif.Lemmas.Utf8
import Verif.Lemmas.VocabFile
import Verif.Model.Abugida
import Verif.Model.Batch
import Verif.Model.BatchIter
import Verif.Model.BitextCli
import Verif.Model.Bpe
import Verif.Model.Bpepp
import Verif.Model.BpeppRun
import Verif.Model.Bytes
import Verif.Model.Cli
import Verif.Model.Cost
import Verif.Model.Db
import Verif.Model.Depth
import Verif.Model.DivergenceFloat
import Verif.Model.EncodeAll
import Verif.Model.Eval
import Verif.Model.FieldViews
import Verif.Model.File
import Verif.Model.FreqCli
import Verif.Model.Heapq
import Verif.Model.Io
import Verif.Model.Json
import Verif.Model.Learn
import Verif.Model.LearnCli
import Verif.Model.Main
import Verif.Model.Mapred
import Verif.Model.Multipart
import Verif.Model.Node
import Verif.Model.Np
import Verif.Model.NpIds
import Verif.Model.PrText
import Verif.Model.Quality
import Verif.Model.QualityCli
import Verif.Model.QualityFloat
import Verif.Model.Raw
import Verif.Model.RecType
import Verif.Model.Report
import Verif.Model.Rss
import Verif.Model.Scheme
import Verif.Model.Script
import Verif.Model.Shrink
import Verif.Model.Spark
import Verif.Model.SplitRatio
import Verif.Model.TermFreq
import Verif.Model.Track
import Verif.Model.TrackFloat
import Verif.Model.TrackViews
import Verif.Model.Trie
import Verif.Model.Types
import Verif.Model.Utf8
import Verif.Props.Abugida
import Verif.Props.Accept
import Verif.Props.Batch
import Verif.Props.BatchExact
import Verif.Props.BatchIter
import Verif.Props.BitextCli
import Verif.Props.BitextExact
import Verif.Props.BpeLearn
import Verif.Props.Bpepp
import Verif.Props.BpeppCli
import Verif.Props.BpeppCodec
import Verif.Props.BpeppExtend
import Verif.Props.BpeppFile
import Verif.Props.BpeppMasked
import Verif.Props.BpeppRun
import Verif.Props.Byte
import Verif.Props.ByteDecode
import Verif.Props.ByteExact
import Verif.Props.Bytes
import Verif.Props.BytesExact
import Verif.Props.BytesModel
import Verif.Props.Cli
import Verif.Props.CliByte
import Verif.Props.CliClass
import Verif.Props.CliClassMain
import Verif.Props.Codec
import Verif.Props.Control
import Verif.Props.ControlExact
import Verif.Props.Cost
import Verif.Props.Coverage
import Verif.Props.Db
import Verif.Props.DbWidth
import Verif.Props.Decode
import Verif.Props.Depth
import Verif.Props.DepthText
import Verif.Props.DivergenceFloat
import Verif.Props.EncodeAll
import Verif.Props.EncodeAllExact
import Verif.Props.Eval
import Verif.Props.Extend
import Verif.Props.F1
import Verif.Props.FieldViews
import Verif.Props.File
import Verif.Props.FileExact
import Verif.Props.FreqCli
import Verif.Props.FreqExact
import Verif.Props.Frequent
import Verif.Props.Heap
import Verif.Props.Io
import Verif.Props.IoShrink
import Verif.Props.Joined
import Verif.Props.Learn
import Verif.Props.LearnCli
import Verif.Props.Length
import Verif.Props.Main
import Verif.Props.Mapred
import Verif.Props.Masked
import Verif.Props.Models
import Verif.Props.Multipart
import Verif.Props.Names
import Verif.Props.Node
import Verif.Props.NpIds
import Verif.Props.Occurs
import Verif.Props.Order
import Verif.Props.Persist
import Verif.Props.PrText
import Verif.Props.Quality
import Verif.Props.QualityCli
import Verif.Props.QualityFloat
import Verif.Props.Rare
import Verif.Props.Raw
import Verif.Props.RecType
import Verif.Props.Report
import Verif.Props.Restore
import Verif.Props.RestoreExact
import Verif.Props.Rss
import Verif.Props.Same
import Verif.Props.Script
import Verif.Props.Segment
import Verif.Props.Shrink
import Verif.Props.ShrinkTwice
import Verif.Props.Spark
import Verif.Props.SplitRatio
import Verif.Props.SplitText
import Verif.Props.Splits
import Verif.Props.Stable
import Verif.Props.StableCli
import Verif.Props.Stats
import Verif.Props.Suffix
import Verif.Props.TermFreq
import Verif.Props.Track
import Verif.Props.TrackFloat
import Verif.Props.TrackLearned
import Verif.Props.TrackViews
import Verif.Props.Trie
import Verif.Props.Unknown
import Verif.Props.Validate
import Verif.Props.WidthExact
import Verif.Py.Basic
import Verif.Spec.Abugida
import Verif.Spec.Accept
import Verif.Spec.Bpe
import Verif.Spec.Bpepp
import Verif.Spec.Cost
import Verif.Spec.Decimal
import Verif.Spec.Grams
import Verif.Spec.Greedy
import Verif.Spec.Heap
import Verif.Spec.Hex
import Verif.Spec.Interleave
import Verif.Spec.JsonText
import Verif.Spec.Learn
import Verif.Spec.Lines
import Verif.Spec.Number
import Verif.Spec.Occurs
import Verif.Spec.Replace
import Verif.Spec.Rounding
import Verif.Spec.Script
import Verif.Spec.Shrink
import Verif.Spec.Splits
import Verif.Spec.Table
import Verif.Spec.Text
import Verif.Spec.Track
import Verif.Spec.VocabFile
