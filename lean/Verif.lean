import Verif.Term
import Verif.Spec
import Verif.IdealModel
import Verif.IdealLemmas
import Verif.ColonLemmas
import Verif.PropsMinimize
import Verif.SliceModel
import Verif.Val
import Verif.SliceLemmas
import Verif.SimplifyLemmas
import Verif.MsmModel
import Verif.MsmBase
import Verif.HilbertModel
import Verif.HilbertBase
import Verif.StrategyModel
import Verif.IndepLemmas
import Verif.ProjLemmas
import Verif.SplitLemmas
import Verif.Run
import Verif.HilbertTop
import Verif.TranslatorModel
import Verif.TranslatorLemmas
import Verif.FacadeLemmas
import Verif.IrrLemmas
import Verif.PrimaryLemmas
import Verif.PropsApi
import Verif.PolyModel
import Verif.PolyLemmas
import Verif.HilbertApiModel
import Verif.HilbertApiLemmas
import Verif.PropsHilbert
import Verif.DimModel
import Verif.DimLemmas
import Verif.PropsDim
import Verif.BuildModel
import Verif.PropsBuild
import Verif.PropsSame
import Verif.PropsSlice
import Verif.TaskModel
import Verif.TaskLemmas
import Verif.PropsTasks
import Verif.PartitionModel
import Verif.PartitionLemmas
import Verif.PropsPartition
import Verif.OptSpec
import Verif.OptModel
import Verif.OptLemmas
import Verif.OptApiLemmas
import Verif.PropsOpt
import Verif.TextModel
import Verif.VarNamesModel
import Verif.VarNamesLemmas
import Verif.PropsNames
import Verif.OrderModel
import Verif.OrderLemmas
import Verif.PropsOrder
import Verif.FactoryModel
import Verif.PropsFactory
import Verif.BigattiModel
import Verif.BigattiPivot
import Verif.BigattiScarf
import Verif.BigattiRun
import Verif.BigattiUni
import Verif.PropsBigatti
import Verif.ScarfModel
import Verif.DeformLemmas
import Verif.ScarfLemmas
import Verif.PropsScarf
import Verif.PropsOrderer
import Verif.IntersectModel
import Verif.PropsIntersect
import Verif.FrobModel
import Verif.PropsFrob
import Verif.AllocModel
import Verif.PropsAlloc
import Verif.ScanModel
import Verif.ScanLemmas
import Verif.IOModel
import Verif.IOLemmas
import Verif.IOFormatLemmas
import Verif.IOListLemmas
import Verif.IOSquareFreeLemmas
import Verif.PropsIO
import Verif.PolyIOModel
import Verif.PolyIOLemmas
import Verif.PolyIOFormatLemmas
import Verif.PropsPolyIO
import Verif.GrammarSpec
import Verif.ReaderLemmas
import Verif.ReaderSoundLemmas
import Verif.ReaderCompleteLemmas
import Verif.ReaderCompleteFormats
import Verif.ReaderFormatLemmas
import Verif.PropsReader
import Verif.GenModel
import Verif.RookLemmas
import Verif.MatchingLemmas
import Verif.GenLemmas
import Verif.GenSpec
import Verif.ChessLemmas
import Verif.FacetLemmas
import Verif.PropsGen
import Verif.PropsRandom
import Verif.SqfModel
import Verif.EulerModel
import Verif.EulerSum
import Verif.SqfLemmas
import Verif.EulerState
import Verif.EulerLemmas
import Verif.EulerPivot
import Verif.EulerRun
import Verif.EulerSpec
import Verif.PropsEuler
import Verif.WordModel
import Verif.WordSpec
import Verif.WordLemmas
import Verif.WordLoops
import Verif.PropsWord
import Verif.RsfModel
import Verif.RsfSpec
import Verif.RsfLemmas
import Verif.RsfLoops
import Verif.RsfOps
import Verif.RsfCompact
import Verif.RsfCount
import Verif.RsfQuery
import Verif.PropsRsf
import Verif.TransformModel
import Verif.TransformSpec
import Verif.TransformLemmas
import Verif.TransformLemmas2
import Verif.TransformLemmas3
import Verif.TransformLemmas4
import Verif.TransformLemmas5
import Verif.TransformLemmas6
import Verif.PropsTransform
import Verif.AnalyzeModel
import Verif.AnalyzeSpec
import Verif.AnalyzeLemmas
import Verif.PropsAnalyze
import Verif.MatrixModel
import Verif.MatrixSpec
import Verif.MatrixLemmas
import Verif.MatrixLemmas2
import Verif.MatrixLemmas3
import Verif.MatrixLemmas4
import Verif.MatrixLemmas5
import Verif.PropsMatrix
import Verif.ActionModel
import Verif.ActionSpec
import Verif.ActionLemmas
import Verif.ActionLemmas2
import Verif.ActionLemmas3
import Verif.ActionLemmas4
import Verif.ActionLemmas5
import Verif.PropsAction
import Verif.PropsTerm
import Verif.SplitNameModel
import Verif.HilbertActionModel
import Verif.HilbertActionSpec
import Verif.HilbertActionLemmas
import Verif.HilbertActionLemmas2
import Verif.PropsHilbertAction
import Verif.DimensionActionModel
import Verif.PropsDimensionAction
import Verif.OptimizeActionModel
import Verif.OptimizeActionSpec
import Verif.OptimizeActionLemmas
import Verif.PropsOptimizeAction
import Verif.FrobGrobSpec
import Verif.FrobGrobLemmas
import Verif.FrobActionModel
import Verif.FrobReadLemmas
import Verif.PropsFrobAction
import Verif.EulerActionModel
import Verif.PropsEulerAction
import Verif.ListGrammarSpec
import Verif.PropsListReader
import Verif.PropsListReaderExact
import Verif.IntersectionActionModel
import Verif.PropsIntersectionAction
import Verif.CommandModel
import Verif.CommandSpec
import Verif.PropsCommand
import Verif.MainModel
import Verif.MainSpec
import Verif.PropsMain
import Verif.PropsProgram
import Verif.PolyGrammarSpec
import Verif.PolyReaderLemmas
import Verif.PolyTransformModel
import Verif.PolyTransformSpec
import Verif.PropsPolyTransform
import Verif.GenActionModel
import Verif.PropsGenAction
import Verif.ArenaModel
import Verif.ArenaSpec
import Verif.ArenaLemmas
import Verif.PropsArena
import Verif.LatticeModel
import Verif.LatticeSpec
import Verif.LatticeLemmas
import Verif.LatticeZero
import Verif.PropsLattice
import Verif.FormatModel
import Verif.PropsFormats
import Verif.DisplayModel
import Verif.DisplaySpec
import Verif.PropsDisplay
import Verif.HelpModel
import Verif.HelpSpec
import Verif.PropsHelp
import Verif.PolyReaderCompleteLemmas
import Verif.PropsPolyReaderExact
import Verif.SatBinomModel
import Verif.SatBinomSpec
import Verif.SatBinomLemmas
import Verif.PropsSatBinom
import Verif.TermPoolModel
import Verif.TermPoolSpec
import Verif.TermPoolLemmas
import Verif.PropsTermPool
import Verif.EulerWordModel
import Verif.EulerWordLen
import Verif.EulerWordRep
import Verif.EulerWordSimp
import Verif.EulerWordPivot
import Verif.EulerWordRun
import Verif.PropsEulerWord
import Verif.PackedModel
import Verif.PackedLemmas
import Verif.PackedRead
import Verif.PropsPacked
import Verif.FrobBasisExists
import Verif.PropsFrobBasis
import Verif.ScanBufModel
import Verif.ScanBufSpec
import Verif.ScanBufLemmas
import Verif.ScanBufOps
import Verif.ScanBufRun
import Verif.FileReaderModel
import Verif.FileReaderLemmas
import Verif.PropsFileReader
import Verif.FileReaderMoreModel
import Verif.FileReaderRestModel
import Verif.FileReaderRestLemmas
import Verif.PropsFileReaderRest
import Verif.FileReaderMoreLemmas
import Verif.PropsFileReaderMore
import Verif.HandleModel
import Verif.HandleSpec
import Verif.HandleLemmas
import Verif.PropsHandle
import Verif.WrapModel
import Verif.WrapSpec
import Verif.WrapLemmas
import Verif.PropsWrap
import Verif.ObjectModel
import Verif.ObjectSpec
import Verif.ObjectLemmas
import Verif.ObjectStepLemmas
import Verif.PropsObject
import Verif.CacheModel
import Verif.CacheSpec
import Verif.CacheLemmas
import Verif.CacheStepLemmas
import Verif.PropsCache
import Verif.StreamModel
import Verif.PropsStream
import Verif.OwnModel
import Verif.OwnSpec
import Verif.OwnLemmas
import Verif.OwnStepLemmas
import Verif.OwnReadLemmas
import Verif.PropsOwn
import Verif.StatModel
import Verif.StatSpec
import Verif.StatLemmas
import Verif.PropsStat
import Verif.PivotChoiceSpec
import Verif.PivotChoiceLemmas
import Verif.PropsPivotChoice
import Verif.SplitChoiceModel
import Verif.SplitChoiceSpec
import Verif.SplitChoiceLemmas
import Verif.PropsSplitChoice
import Verif.PropsSplitDegree
import Verif.PropsSplitSlice
import Verif.DegreeChoiceSpec
import Verif.DegreeChoiceLemmas
import Verif.PropsDegreeChoice
import Verif.PropsDegreeMedian
import Verif.TermOrderModel
import Verif.PropsTermOrder
