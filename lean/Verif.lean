import Verif.Basic
import Verif.Text
import Verif.F64
import Verif.Tson
import Verif.Patch
import Verif.ApplyTree
import Verif.Rep
import Verif.Refine
import Verif.Logument
import Verif.LogLemmas
import Verif.SpecLog
import Verif.PropsVersions
import Verif.View
import Verif.SpecDoc
import Verif.PropsPointer
import Verif.SpecApply
import Verif.ApplyLemmas
import Verif.PropsApply
import Verif.PropsRootArr
import Verif.PropsRootPatch
import Verif.SpecReplay
import Verif.SnapLemmas
import Verif.PropsSnapshot
import Verif.SpecCompact
import Verif.CompactLemmas
import Verif.PropsCompact
import Verif.PropsReplay
import Verif.PropsReplayArr
import Verif.PropsFilesTight
import Verif.PropsWebFs
import Verif.PropsHistory
import Verif.PropsSlice
import Verif.PropsTemporal
import Verif.Diff
import Verif.SpecDiff
import Verif.PropsDiff
import Verif.PropsDiffOps
import Verif.PropsDiffApply
import Verif.PropsDiffNeeds
import Verif.FloatText
import Verif.FloatLemmas
import Verif.Quote
import Verif.Codec
import Verif.CodecLemmas
import Verif.SpecCodec
import Verif.QuoteLemmas
import Verif.RoundTrip
import Verif.LexLemmas
import Verif.LexSim
import Verif.LexSpace
import Verif.ParseInv
import Verif.PropsCodec
import Verif.Json
import Verif.SpecJson
import Verif.JsonLemmas
import Verif.JsonTrip
import Verif.JsonImport
import Verif.JsonOrder
import Verif.PropsJson
import Verif.JsonText
import Verif.JsonTextLemmas
import Verif.JsonTextRead
import Verif.JsonTextFuel
import Verif.PropsText
import Verif.PatchText
import Verif.SpecPatchText
import Verif.PatchTextLemmas
import Verif.PropsPatchText
import Verif.TJson
import Verif.SpecTJson
import Verif.TJsonLemmas
import Verif.PropsTJson
import Verif.SpecOutcome
import Verif.PropsOutcome
import Verif.Exp
import Verif.SpecExp
import Verif.PropsExp
import Verif.ExpQuery
import Verif.SpecExpQuery
import Verif.PropsExpQuery
import Verif.SpecExpStore
import Verif.PropsExpStore
import Verif.ExpRun
import Verif.PropsExpRun
import Verif.SpecArrays
import Verif.PropsArrays
import Verif.Vss
import Verif.SpecVss
import Verif.PropsVss
import Verif.VssGen
import Verif.SpecVssGen
import Verif.PropsVssGen
import Verif.SpecDiffFull
import Verif.PropsDiffFull
import Verif.PropsTight
import Verif.PropsSortedForm
import Verif.VssPatch
import Verif.SpecVssPatch
import Verif.PropsVssPatch
import Verif.FloatOrder
import Verif.PropsFloatRange
import Verif.VssSave
import Verif.SpecVssSave
import Verif.SaveLemmas
import Verif.PropsVssSave
import Verif.PropsEscapes
import Verif.WebDemo
import Verif.ParseWf
import Verif.PropsWebDemo
import Verif.PropsPlainMap
import Verif.PropsExpPatches
import Verif.FloatArith
import Verif.VssTable
import Verif.ExpSched
import Verif.PropsExpSched
import Verif.ExpValue
import Verif.FloatBound
import Verif.PropsExpEqual
import Verif.PropsExpValue
import Verif.FloatStep
import Verif.ExpLoop
import Verif.ExpLoopLemmas
import Verif.ExpLoopStart
import Verif.ExpLoopMixed
import Verif.PropsExpLoop
import Verif.ExpLoopSwitch
import Verif.PropsExpSwitch
import Verif.ExpTrack
import Verif.FloatError
import Verif.PropsExpTimes
import Verif.SpecExpTrack
import Verif.PropsExpTrack
import Verif.PropsExpZero
import Verif.PropsExpDoc
import Verif.PropsExpPlain
import Verif.ExpLoopTame
import Verif.PropsExpWhole
import Verif.ExpTemporal
import Verif.PropsExpTemporal
import Verif.SpecVssTight
import Verif.PropsVssTight
import Verif.ExpFiles
import Verif.JsonIndent
import Verif.JsonIndentRead
import Verif.PropsExpFiles
import Verif.PropsExpDirs
import Verif.PropsExpAll
import Verif.PropsSaveTight
import Verif.VssPrint
import Verif.PropsVssPrint
import Verif.TsonPrint
import Verif.PropsTsonPrint
import Verif.Csv
import Verif.ExpCsv
import Verif.SpecCsv
import Verif.PropsCsv
import Verif.FloatNear
import Verif.PropsPercent
import Verif.PropsExpCsv
import Verif.PropsExpSize
import Verif.PropsExpTight
import Verif.ExpOut
import Verif.PropsExpOut
import Verif.PropsExpKept
import Verif.PropsExpBack
import Verif.PropsExpSaved
import Verif.ExpSnaps
import Verif.PropsExpSnaps
import Verif.SpecOne
import Verif.PropsOne
import Verif.PatchMem
import Verif.SpecMem
import Verif.MemLemmas
import Verif.PropsMem
import Verif.PropsDamage
import Verif.PropsPatchDamage
import Verif.PropsCsvTight
import Verif.PropsExpRows
import Verif.ExpLoopDrift
import Verif.PropsExpDrift
import Verif.PropsWebArgs
import Verif.PropsExpNumbered
import Verif.ExpCycle
import Verif.PropsExpCycle
import Verif.ExpMain
import Verif.PropsExpMain
import Verif.WebPage
import Verif.PropsWebPage
import Verif.PropsWebState
import Verif.PropsTsonJson
import Verif.PropsTsonJsonConv
import Verif.PropsDemoPage
import Verif.PropsRootOps
import Verif.PropsRecordPerm
import Verif.PropsSliceUse
import Verif.PropsGrouping
import Verif.PropsWindows
import Verif.PropsCompactTrack
import Verif.PropsHistoryTrack
import Verif.PropsTrackOk
import Verif.PropsDiffLog
import Verif.PropsNulls
import Verif.PropsDiffRaw
import Verif.PropsDiffTimes
import Verif.PropsDiffSeries
import Verif.PropsDiffKept
import Verif.PropsTransform
import Verif.PropsPatchAny
