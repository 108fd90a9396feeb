import Verif.Base
import Verif.BaseLemmas
import Verif.SharedCache
import Verif.Encoding.Model
import Verif.Encoding.Spec
import Verif.Encoding.Lemmas
import Verif.Encoding.Props
import Verif.Encoding.Props2
import Verif.Encoding.Props3
import Verif.Encoding.Props4
import Verif.Bpe.Word
import Verif.Bpe.Spec
import Verif.Bpe.WordLemmas
import Verif.Bpe.MergeAll
import Verif.Bpe.WordProps
import Verif.Bpe.Model
import Verif.Bpe.Build
import Verif.Bpe.Unknown
import Verif.Bpe.UnknownExact
import Verif.Bpe.Tokenize
import Verif.Bpe.Cache
import Verif.Norm.Model
import Verif.Norm.Lemmas
import Verif.Norm.Spec
import Verif.Norm.WF
import Verif.Norm.C08
import Verif.Norm.C09
import Verif.Norm.C10
import Verif.Norm.Pattern
import Verif.Pre.Model
import Verif.Pre.Offsets
import Verif.Pre.Props
import Verif.Pre.Limit
import Verif.Models.WordPiece
import Verif.Text.Utf8
import Verif.Unigram.Trie
import Verif.Unigram.Model
import Verif.Unigram.Dp
import Verif.Unigram.Pieces
import Verif.Unigram.C23
import Verif.Unigram.C24
import Verif.Unigram.Tokenize
import Verif.Unigram.NBest
import Verif.Unigram.C47
import Verif.Text.Lossy
import Verif.Pre.Pieces
import Verif.Codec.StrReplace
import Verif.Codec.ByteLevel
import Verif.Codec.Decoders
import Verif.Codec.Metaspace
import Verif.Codec.Wrapper
import Verif.Codec.Stream
import Verif.Added.Vocab
import Verif.Added.Match
import Verif.Post.Model
import Verif.Post.Merge
import Verif.Post.Bert
import Verif.Post.Template
import Verif.Post.Process
import Verif.Post.C37
import Verif.Post.Syntax
import Verif.Tokenizer.Model
import Verif.Tokenizer.Vocab
import Verif.Tokenizer.Batch
import Verif.Tokenizer.Cong
import Verif.Tokenizer.Fast
import Verif.Tokenizer.Early
import Verif.Tokenizer.Words
import Verif.Tokenizer.Samples
import Verif.Tokenizer.Lossless
import Verif.Save.Model
import Verif.Save.Vocab
import Verif.Save.Bpe
import Verif.Save.Added
import Verif.Train.Feed
import Verif.Train.WordLevel
import Verif.Train.BpeModel
import Verif.Train.BpeSpec
import Verif.Train.BpeSeg
import Verif.Train.BpeStats
import Verif.Train.BpeRound
import Verif.Train.BpeInv
import Verif.Train.BpeStep
import Verif.Train.BpeLoop
import Verif.Train.BpeStart
import Verif.Train.BpeRead
import Verif.Train.BpeTable
import Verif.Train.BpeTrain
import Verif.Train.BpeOrder
import Verif.Train.BpeExamples
import Verif.Normalizers.Model
import Verif.Normalizers.Spec
import Verif.Normalizers.Props
import Verif.Normalizers.Sources
import Verif.PreTokenizers.Model
import Verif.PreTokenizers.Spec
import Verif.PreTokenizers.Runs
import Verif.PreTokenizers.Loops
import Verif.PreTokenizers.Props
import Verif.Tokenizer.Pipeline
import Verif.Tokenizer.PipelineSamples
import Verif.Tokenizer.Order
import Verif.Tokenizer.Offsets
import Verif.Tokenizer.OffsetsAll
import Verif.Tokenizer.Exact
import Verif.Unigram.Marginal
import Verif.Unigram.Paths
import Verif.Unigram.C60
import Verif.Unigram.C60Model
import Verif.Unigram.EStep
import Verif.Train.UnigramModel
import Verif.Train.UnigramFinal
import Verif.Train.UnigramCover
import Verif.Train.UnigramSamples
import Verif.Train.UnigramLoop
import Verif.Train.UnigramSteps
import Verif.Train.UnigramScores
import Verif.Train.WordPiece
import Verif.Tokenizer.Training
import Verif.Tokenizer.Trained
import Verif.Bpe.ByteFallback
import Verif.Tokenizer.Llama
import Verif.Tokenizer.LlamaSamples
import Verif.Save.Json
import Verif.Save.Config
import Verif.Save.RoundTrip
import Verif.Save.Reread
import Verif.Save.File
import Verif.Save.FileRoundTrip
import Verif.Save.FileSamples
import Verif.Save.Interp
import Verif.Save.Behave
import Verif.Save.Again
import Verif.Save.BehaveSamples
import Verif.Save.Published
import Verif.Save.PublishedLlama
import Verif.Save.PublishedBert
import Verif.Save.PublishedSamples
import Verif.Unigram.C68Model
import Verif.Tokenizer.Meta
import Verif.Tokenizer.MetaSamples
import Verif.Tokenizer.BertText
import Verif.Save.PublishedBertText
import Verif.Save.PublishedBertSamples
import Verif.Regex.Model
import Verif.Regex.Engine
import Verif.Regex.ByteLevel
import Verif.Regex.Words
import Verif.Regex.Fixed
import Verif.Regex.Append
import Verif.Tokenizer.Apart
import Verif.Regex.Samples
import Verif.Bpe.Strings
import Verif.Save.PublishedGpt2
import Verif.Save.Gpt2Samples
import Verif.Train.BpeOverflow
import Verif.Unigram.Round
import Verif.Unigram.RoundDp
import Verif.Unigram.C75
import Verif.Unigram.F64
import Verif.Unigram.RoundExact
import Verif.PreTokenizers.ScriptTable
import Verif.PreTokenizers.C76
import Verif.Codec.StreamFallback
import Verif.Tokenizer.Streaming
import Verif.Tokenizer.TrainedBpe
import Verif.Tokenizer.TrainedBpeSamples
import Verif.Parallelism
import Verif.Tokenizer.TrainedAny
import Verif.Encoding.Props5
import Verif.Added.SkipExact
import Verif.Codec.MetaspaceExact
import Verif.Post.Exact
import Verif.Tokenizer.Roberta
import Verif.Save.PublishedEngine
import Verif.Bindings.Slice
import Verif.Bindings.RefMut
import Verif.Bindings.Iter
import Verif.Bindings.Inputs
import Verif.Tokenizer.TrainedMeta
import Verif.Tokenizer.TrainedBert
import Verif.Tokenizer.TrainedMetaSamples
import Verif.Bindings.Pickle
import Verif.Bindings.Settings
import Verif.Bindings.AddedTok
import Verif.Bindings.Shared
import Verif.Bindings.Repr
import Verif.Bindings.Visualize
import Verif.Bpe.Suffix
import Verif.Tokenizer.CharBpe
import Verif.Tokenizer.TrainedMetaBpe
import Verif.Tokenizer.CharBpeSamples
import Verif.Regex.Spaces
import Verif.Bindings.Classes
import Verif.Bindings.ClassesSamples
import Verif.Save.Defaults
import Verif.Bpe.Retrain
import Verif.Bindings.NodeTasks
import Verif.Bindings.Sequences
import Verif.Bindings.Attributes
import Verif.Tokenizer.NoErrors
import Verif.Bindings.SharedModels
import Verif.Tokenizer.TrainedIds
import Verif.Bindings.PyStream
import Verif.Tokenizer.ExactBpe
import Verif.Bindings.Factories
import Verif.Bindings.PyPreTok
import Verif.Tokenizer.Stable
import Verif.Tokenizer.StableSamples
import Verif.Tokenizer.T5
import Verif.Save.PublishedT5
import Verif.Save.T5Samples
import Verif.Norm.C107
import Verif.Tokenizer.Llama3
import Verif.Save.PublishedLlama3
import Verif.Save.PublishedLlama3Samples
import Verif.Bindings.Exact
import Verif.Tokenizer.C109
import Verif.Tokenizer.Pairs
import Verif.Save.PairsSamples
import Verif.Text.LossyCut
import Verif.Tokenizer.Truncated
import Verif.Tokenizer.Windows
import Verif.Tokenizer.EncodeSpecial
import Verif.Save.EncodeSpecialFile
import Verif.Tokenizer.AddLocal
import Verif.Save.AddLocalFile
import Verif.Train.BpeSizes
import Verif.Train.Sizes
import Verif.Save.PublishedLlama3Cut
import Verif.Models.Renaming
import Verif.Unigram.Reorder
import Verif.Encoding.Renumber
import Verif.Post.Renumber
import Verif.Tokenizer.Renumber
import Verif.Save.Renumber
import Verif.Tokenizer.Rectangular
import Verif.Encoding.Remap
import Verif.Post.Remap
import Verif.Tokenizer.CharOffsets
import Verif.Save.PublishedRoberta
import Verif.Save.RobertaSamples
import Verif.Save.Sampling
import Verif.Post.Chain
import Verif.Encoding.Twice
import Verif.Unigram.NoUnk
