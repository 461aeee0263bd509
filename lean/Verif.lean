import Verif.Arith
import Verif.Basic
import Verif.Bigram.Lemmas
import Verif.Bigram.Model
import Verif.Bigram.Reach
import Verif.Bigram.ReadLemmas
import Verif.Bigram.Spec
import Verif.Bigram.Text
import Verif.Bigram.ThreadInv
import Verif.Bigram.ThreadLemmas
import Verif.Bigram.ThreadSpec
import Verif.Bigram.Threads
import Verif.Binary64
import Verif.Client.Model
import Verif.Client.Program
import Verif.Client.ProgramSpec
import Verif.Client.Spec
import Verif.Config.Model
import Verif.Fst
import Verif.Hub.Answer
import Verif.Hub.Budget
import Verif.Hub.Closed
import Verif.Hub.Create
import Verif.Hub.Demo
import Verif.Hub.Denote
import Verif.Hub.Directory
import Verif.Hub.Effects
import Verif.Hub.Few
import Verif.Hub.Guard
import Verif.Hub.Inv
import Verif.Hub.Lemmas
import Verif.Hub.Mimic
import Verif.Hub.MimicSpec
import Verif.Hub.Model
import Verif.Hub.NumSpec
import Verif.Hub.Numeric
import Verif.Hub.Origin
import Verif.Hub.Pages
import Verif.Hub.Path
import Verif.Hub.Points
import Verif.Hub.Preserve
import Verif.Hub.Quiet
import Verif.Hub.Refresh
import Verif.Hub.Ring
import Verif.Hub.Rounding
import Verif.Hub.RoundingSpec
import Verif.Hub.Shadow
import Verif.Hub.SortBy
import Verif.Hub.Sorted
import Verif.Hub.Spec
import Verif.Hub.Static
import Verif.Hub.Tandem
import Verif.Hub.TandemMix
import Verif.Hub.TandemSpec
import Verif.Hub.Trace
import Verif.MatchLemmas
import Verif.MatchSpec
import Verif.NGram.Accuracy
import Verif.NGram.AccuracySpec
import Verif.NGram.Model
import Verif.NGram.Rename
import Verif.NGram.Spec
import Verif.NGram.Text
import Verif.NGram.TextSpec
import Verif.Ppm.Accuracy
import Verif.Ppm.Alike
import Verif.Ppm.Amount
import Verif.Ppm.Cache
import Verif.Ppm.Calls
import Verif.Ppm.Context
import Verif.Ppm.Diff
import Verif.Ppm.Grows
import Verif.Ppm.Members
import Verif.Ppm.Memory
import Verif.Ppm.MemoryRun
import Verif.Ppm.MemorySpec
import Verif.Ppm.MemoryUnique
import Verif.Ppm.Model
import Verif.Ppm.Monotone
import Verif.Ppm.Near
import Verif.Ppm.NearRun
import Verif.Ppm.NearSpec
import Verif.Ppm.NumSpec
import Verif.Ppm.Numeric
import Verif.Ppm.Observe
import Verif.Ppm.Ops
import Verif.Ppm.Pure
import Verif.Ppm.Read
import Verif.Ppm.ReadLemmas
import Verif.Ppm.Save
import Verif.Ppm.Session
import Verif.Ppm.Shuffle
import Verif.Ppm.Spec
import Verif.Ppm.Teaching
import Verif.Ppm.Ticks
import Verif.Ppm.Totals
import Verif.Ppm.Train
import Verif.Ppm.TrainEncode
import Verif.Ppm.TrainExclusion
import Verif.Ppm.TrainOk
import Verif.Ppm.TrainSpec
import Verif.Ppm.TrainText
import Verif.Ppm.TrainWF
import Verif.Ppm.Twin
import Verif.Ppm.Unigram
import Verif.Ppm.UnigramSpec
import Verif.Ppm.Update
import Verif.Props.Alone
import Verif.Props.AloneTrained
import Verif.Props.Bigram
import Verif.Props.BigramFault
import Verif.Props.BigramNumeric
import Verif.Props.BigramThreads
import Verif.Props.Book
import Verif.Props.BookDemo
import Verif.Props.Chain
import Verif.Props.Client
import Verif.Props.ClientNumeric
import Verif.Props.Code
import Verif.Props.CodeDemo
import Verif.Props.Config
import Verif.Props.Continue
import Verif.Props.Directory
import Verif.Props.Example
import Verif.Props.ExampleDemo
import Verif.Props.Generation
import Verif.Props.GenerationDemo
import Verif.Props.History
import Verif.Props.Hub
import Verif.Props.HubExtract
import Verif.Props.HubNumeric
import Verif.Props.Interchange
import Verif.Props.JavaLearning
import Verif.Props.JavaLearningDemo
import Verif.Props.Kbest
import Verif.Props.Linear
import Verif.Props.LinearBook
import Verif.Props.LinearDemo
import Verif.Props.Measure
import Verif.Props.MeasureDemo
import Verif.Props.MeasureModels
import Verif.Props.NGram
import Verif.Props.NGramAccuracy
import Verif.Props.NGramNumeric
import Verif.Props.PairChance
import Verif.Props.PairChanceDemo
import Verif.Props.PairCode
import Verif.Props.PairCodeDemo
import Verif.Props.Ppm
import Verif.Props.PpmAccuracy
import Verif.Props.PpmAccuracyDemo
import Verif.Props.PpmCounter
import Verif.Props.PpmDemo
import Verif.Props.PpmMemory
import Verif.Props.PpmMemoryDemo
import Verif.Props.PpmMemoryRead
import Verif.Props.PpmNumeric
import Verif.Props.PpmRounding
import Verif.Props.PpmSaturation
import Verif.Props.PpmSave
import Verif.Props.PpmSaveDemo
import Verif.Props.PpmStill
import Verif.Props.PpmTrain
import Verif.Props.PpmTrainDemo
import Verif.Props.Program
import Verif.Props.ProgramDemo
import Verif.Props.ProgramRun
import Verif.Props.Programs
import Verif.Props.ProgramsDemo
import Verif.Props.Refresh
import Verif.Props.RefreshWeights
import Verif.Props.Relabel
import Verif.Props.RelabelDemo
import Verif.Props.RelabelModel
import Verif.Props.RelabelServer
import Verif.Props.Rounding
import Verif.Props.RoundingBayes
import Verif.Props.RoundingBigram
import Verif.Props.RoundingDemo
import Verif.Props.RoundingServer
import Verif.Props.Scores
import Verif.Props.Server
import Verif.Props.ServerAccuracy
import Verif.Props.ServerAccuracyDemo
import Verif.Props.ServerLifecycle
import Verif.Props.ServerSerial
import Verif.Props.ServerShutdown
import Verif.Props.Service
import Verif.Props.ServiceDemo
import Verif.Props.Session
import Verif.Props.Startup
import Verif.Props.StartupDemo
import Verif.Props.System
import Verif.Props.SystemMemory
import Verif.Props.SystemMemoryDemo
import Verif.Props.SystemPairs
import Verif.Props.SystemPairsDemo
import Verif.Props.SystemService
import Verif.Props.SystemUpdate
import Verif.Props.Teaching
import Verif.Props.TeachingDemo
import Verif.Props.TeachingServer
import Verif.Props.TextChance
import Verif.Props.TextChanceDemo
import Verif.Props.Together
import Verif.Props.TogetherDemo
import Verif.Props.Voices
import Verif.Props.Weigh
import Verif.Props.WordCache
import Verif.Props.WordChance
import Verif.Props.WordChanceDemo
import Verif.Props.WordCounter
import Verif.Props.WordEvict
import Verif.Props.WordLoad
import Verif.Props.WordNegative
import Verif.Props.WordPrefix
import Verif.Props.WordScores
import Verif.Props.WordStates
import Verif.Props.WordTables
import Verif.Relabel.Model
import Verif.Rounding
import Verif.RoundingLemmas
import Verif.Scores.Model
import Verif.Scores.Numeric
import Verif.Scores.Rounding
import Verif.Scores.Spec
import Verif.Server.Calls
import Verif.Server.Directory
import Verif.Server.DirectorySpec
import Verif.Server.Guard
import Verif.Server.HandlerLemmas
import Verif.Server.Handlers
import Verif.Server.Lifecycle
import Verif.Server.LifecycleEnd
import Verif.Server.LifecycleInv
import Verif.Server.LifecycleStep
import Verif.Server.LinearSpec
import Verif.Server.Service
import Verif.Server.ServiceEnd
import Verif.Server.ServiceLemmas
import Verif.Server.ServiceSpec
import Verif.Server.Shadow
import Verif.Server.Tandem
import Verif.Server.TandemSpec
import Verif.System.Alone
import Verif.System.Book
import Verif.System.BookSpec
import Verif.System.ChanceSpec
import Verif.System.Client
import Verif.System.CodeSpec
import Verif.System.Drawing
import Verif.System.Example
import Verif.System.ExampleSpec
import Verif.System.Generating
import Verif.System.JavaLearning
import Verif.System.JavaLearningSpec
import Verif.System.Learning
import Verif.System.LearningServer
import Verif.System.LinearSpec
import Verif.System.Listing
import Verif.System.Live
import Verif.System.Mates
import Verif.System.MeasuredSpec
import Verif.System.MemorySpec
import Verif.System.Model
import Verif.System.OfferedSpec
import Verif.System.PairChanceSpec
import Verif.System.PairCodeSpec
import Verif.System.PairSpec
import Verif.System.Pairs
import Verif.System.PairsServer
import Verif.System.RoundingSpec
import Verif.System.ServiceSpec
import Verif.System.Session
import Verif.System.Shares
import Verif.System.Sitting
import Verif.System.Sound
import Verif.System.Startup
import Verif.System.StartupSpec
import Verif.System.Steady
import Verif.System.Tandem
import Verif.System.TandemSpec
import Verif.System.TogetherSpec
import Verif.System.Trace
import Verif.System.WeighedSpec
import Verif.TwinLemmas
import Verif.TwinSpec
import Verif.Word.Answer
import Verif.Word.Cache
import Verif.Word.Extract
import Verif.Word.Marginals
import Verif.Word.Model
import Verif.Word.Order
import Verif.Word.Place
import Verif.Word.Pure
import Verif.Word.Ranges
import Verif.Word.Ready
import Verif.Word.Refine
import Verif.Word.Spec
import Verif.Word.States
import Verif.Word.Tables
import Verif.Word.TextSpec
import Verif.Word.Ticks
import Verif.Word.WeightSpec
import Verif.Word.Weights
import Verif.XR
