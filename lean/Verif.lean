import Verif.Model.Args
import Verif.Model.Batch
import Verif.Model.Cache
import Verif.Model.Chars
import Verif.Model.CharsFile
import Verif.Model.CharsOptimizer
import Verif.Model.CharsShow
import Verif.Model.CountLog
import Verif.Model.Disk
import Verif.Model.Entropy
import Verif.Model.Faults
import Verif.Model.Float
import Verif.Model.Json
import Verif.Model.JsonRead
import Verif.Model.Lazy
import Verif.Model.Log
import Verif.Model.Machine
import Verif.Model.MachineOpt
import Verif.Model.Main
import Verif.Model.MainLog
import Verif.Model.Old
import Verif.Model.OldAll
import Verif.Model.OldNames
import Verif.Model.OldOptimizer
import Verif.Model.OldRemove
import Verif.Model.Optimize
import Verif.Model.OptimizeBytes
import Verif.Model.Passes
import Verif.Model.Prelude
import Verif.Model.Pretty
import Verif.Model.Processing
import Verif.Model.Reading
import Verif.Model.Repeat
import Verif.Model.RepeatMain
import Verif.Model.Running
import Verif.Model.Sampler
import Verif.Model.Show
import Verif.Model.Stats
import Verif.Model.Together
import Verif.Model.TokenSet
import Verif.Model.Tokenizer
import Verif.Model.Utf8
import Verif.Model.Work
import Verif.Model.Writing
import Verif.Proofs.Accounting
import Verif.Proofs.AddUp
import Verif.Proofs.Args
import Verif.Proofs.Automaton
import Verif.Proofs.Batch
import Verif.Proofs.Beginnings
import Verif.Proofs.Bpe
import Verif.Proofs.BpeExample
import Verif.Proofs.ByteSaving
import Verif.Proofs.Bytes
import Verif.Proofs.Chars
import Verif.Proofs.CharsCount
import Verif.Proofs.CharsDepth
import Verif.Proofs.CharsExt
import Verif.Proofs.CharsFile
import Verif.Proofs.CharsGrow
import Verif.Proofs.CharsHuff
import Verif.Proofs.CharsSets
import Verif.Proofs.CharsShow
import Verif.Proofs.Close
import Verif.Proofs.Coding
import Verif.Proofs.Commands
import Verif.Proofs.Constructors
import Verif.Proofs.CountChars
import Verif.Proofs.CountLog
import Verif.Proofs.Counts
import Verif.Proofs.Cuts
import Verif.Proofs.DP
import Verif.Proofs.Disk
import Verif.Proofs.Examples
import Verif.Proofs.Family
import Verif.Proofs.Faults
import Verif.Proofs.Fits
import Verif.Proofs.Float
import Verif.Proofs.Huff
import Verif.Proofs.Huff2
import Verif.Proofs.Huff3
import Verif.Proofs.Huff4
import Verif.Proofs.Huff5
import Verif.Proofs.Huff6
import Verif.Proofs.HuffDepth
import Verif.Proofs.HuffWitness
import Verif.Proofs.Instances
import Verif.Proofs.Json
import Verif.Proofs.Json2
import Verif.Proofs.Json3
import Verif.Proofs.JsonExact
import Verif.Proofs.JsonPrefix
import Verif.Proofs.JsonRead
import Verif.Proofs.JsonSound
import Verif.Proofs.JsonWrite
import Verif.Proofs.Lazy
import Verif.Proofs.Limits
import Verif.Proofs.Load
import Verif.Proofs.Local
import Verif.Proofs.Log
import Verif.Proofs.Log2
import Verif.Proofs.Log3
import Verif.Proofs.Log4
import Verif.Proofs.Log5
import Verif.Proofs.Loop
import Verif.Proofs.Lossy
import Verif.Proofs.Machine
import Verif.Proofs.MachineOpt
import Verif.Proofs.MachineOpt2
import Verif.Proofs.MachineOpt3
import Verif.Proofs.MainLog
import Verif.Proofs.MainLog2
import Verif.Proofs.Old
import Verif.Proofs.OldAll
import Verif.Proofs.OldBest
import Verif.Proofs.OldBytes
import Verif.Proofs.OldCost
import Verif.Proofs.OldExchange
import Verif.Proofs.OldMay
import Verif.Proofs.OldQuiet
import Verif.Proofs.OldRemove
import Verif.Proofs.OldRounds
import Verif.Proofs.OldSets
import Verif.Proofs.OldSmall
import Verif.Proofs.OldWhole
import Verif.Proofs.OldWp
import Verif.Proofs.OneOfMany
import Verif.Proofs.OnePair
import Verif.Proofs.Optimum
import Verif.Proofs.Origin
import Verif.Proofs.Passes
import Verif.Proofs.Pretty
import Verif.Proofs.ProcessBytes
import Verif.Proofs.Processing
import Verif.Proofs.Progress
import Verif.Proofs.Reach
import Verif.Proofs.Reading
import Verif.Proofs.Readme
import Verif.Proofs.Regular
import Verif.Proofs.Reorder
import Verif.Proofs.Repeat
import Verif.Proofs.RepeatMain
import Verif.Proofs.Resume
import Verif.Proofs.Running
import Verif.Proofs.SameFile
import Verif.Proofs.SameNumbers
import Verif.Proofs.Sampler
import Verif.Proofs.Sampler2
import Verif.Proofs.Sampler3
import Verif.Proofs.SavedSizes
import Verif.Proofs.Saving
import Verif.Proofs.Share
import Verif.Proofs.Show
import Verif.Proofs.Simple
import Verif.Proofs.Sizes
import Verif.Proofs.Spans
import Verif.Proofs.Start
import Verif.Proofs.Step
import Verif.Proofs.Stuck
import Verif.Proofs.Success
import Verif.Proofs.TextSize
import Verif.Proofs.Times
import Verif.Proofs.Together
import Verif.Proofs.TokenSetOps
import Verif.Proofs.Tokenizer
import Verif.Proofs.Traceback
import Verif.Proofs.Utf8
import Verif.Proofs.Work
import Verif.Proofs.Wp
import Verif.Proofs.Writing
import Verif.Props.AddUp
import Verif.Props.Batch
import Verif.Props.Beforehand
import Verif.Props.Beginnings
import Verif.Props.Bpe
import Verif.Props.Chars
import Verif.Props.CharsFile
import Verif.Props.CharsOptimizer
import Verif.Props.CharsShow
import Verif.Props.CodeLength
import Verif.Props.CommandLine
import Verif.Props.Commands
import Verif.Props.Compare
import Verif.Props.Convert
import Verif.Props.CountChars
import Verif.Props.CountLog
import Verif.Props.Cuts
import Verif.Props.Disk
import Verif.Props.Edits
import Verif.Props.Entropy
import Verif.Props.Family
import Verif.Props.Faults
import Verif.Props.FileEnough
import Verif.Props.Files
import Verif.Props.HuffBest
import Verif.Props.Json
import Verif.Props.JsonText
import Verif.Props.Lazy
import Verif.Props.Limits
import Verif.Props.Local
import Verif.Props.Log
import Verif.Props.Machine
import Verif.Props.MachineOpt
import Verif.Props.MainLog
import Verif.Props.Old
import Verif.Props.OldFile
import Verif.Props.OldNames
import Verif.Props.OldOptimizer
import Verif.Props.OldRemove
import Verif.Props.OneOfMany
import Verif.Props.Optimize
import Verif.Props.OptimizeBytes
import Verif.Props.Optimum
import Verif.Props.Passes
import Verif.Props.Pipeline
import Verif.Props.Processing
import Verif.Props.Progress
import Verif.Props.Random
import Verif.Props.Reading
import Verif.Props.Readme
import Verif.Props.Real
import Verif.Props.Reorder
import Verif.Props.ReorderFile
import Verif.Props.Repeat
import Verif.Props.RepeatMain
import Verif.Props.RepoTests
import Verif.Props.Reported
import Verif.Props.Resume
import Verif.Props.Running
import Verif.Props.SameFile
import Verif.Props.SameNumbers
import Verif.Props.Sampler
import Verif.Props.Samples
import Verif.Props.SavedSizes
import Verif.Props.Show
import Verif.Props.Temporary
import Verif.Props.TextSize
import Verif.Props.TextSizeFile
import Verif.Props.Threads
import Verif.Props.Times
import Verif.Props.Together
import Verif.Props.TokenSet
import Verif.Props.Tokenizer
import Verif.Props.WholeWay
import Verif.Props.WordCost
import Verif.Props.Work
import Verif.Props.Writing
import Verif.Spec.AddUp
import Verif.Spec.ByteUse
import Verif.Spec.Chars
import Verif.Spec.CharsFile
import Verif.Spec.CharsOptimizer
import Verif.Spec.CharsShow
import Verif.Spec.Coding
import Verif.Spec.CommandLine
import Verif.Spec.Commands
import Verif.Spec.Compare
import Verif.Spec.CountLog
import Verif.Spec.Cuts
import Verif.Spec.Disk
import Verif.Spec.Family
import Verif.Spec.Faults
import Verif.Spec.JsonText
import Verif.Spec.Lazy
import Verif.Spec.Loaded
import Verif.Spec.Local
import Verif.Spec.Log
import Verif.Spec.MainLog
import Verif.Spec.Merging
import Verif.Spec.Old
import Verif.Spec.OldAll
import Verif.Spec.OldOptimizer
import Verif.Spec.OldRemove
import Verif.Spec.Optimizing
import Verif.Spec.Pairs
import Verif.Spec.Passes
import Verif.Spec.Progress
import Verif.Spec.Reading
import Verif.Spec.Readme
import Verif.Spec.Reorder
import Verif.Spec.Reported
import Verif.Spec.Sampling
import Verif.Spec.Saved
import Verif.Spec.Segmentation
import Verif.Spec.TextSize
import Verif.Spec.Times
import Verif.Spec.Together
import Verif.Spec.Views
import Verif.Spec.WordCost
import Verif.Spec.Words
import Verif.Spec.Work
