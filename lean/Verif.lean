import Verif.Base.Basic
import Verif.Base.Interleave
import Verif.Model.Reader
import Verif.Model.Coo
import Verif.Lemmas.Reader
import Verif.Spec.Text
import Verif.Lemmas.Lines
import Verif.Spec.Edges
import Verif.Lemmas.EdgeList
import Verif.Lemmas.EdgeRegion
import Verif.Lemmas.EdgePlan
import Verif.Lemmas.EdgeExec
import Verif.Lemmas.EdgeSpec
import Verif.Model.Fp
import Verif.Spec.Fp
import Verif.Lemmas.Fp
import Verif.Lemmas.Formats
import Verif.Lemmas.EdgeFile
import Verif.Props.EdgeList
import Verif.Lemmas.Safety
import Verif.Spec.Edits
import Verif.Props.EdgeList2
import Verif.Base.Blocks
import Verif.Spec.Scan
import Verif.Props.Reader
import Verif.Model.FindOffsets
import Verif.Lemmas.Prefix
import Verif.Props.FindOffsets
import Verif.Model.Ascii
import Verif.Spec.Ascii
import Verif.Lemmas.Ascii
import Verif.Props.Ascii
import Verif.Spec.MatrixMarket
import Verif.Lemmas.MatrixMarket
import Verif.Props.MatrixMarket
import Verif.Base.Nondet
import Verif.Spec.Csr
import Verif.Model.Csr
import Verif.Lemmas.Alloc
import Verif.Lemmas.Scatter
import Verif.Lemmas.CsrRows
import Verif.Lemmas.CsrConvert
import Verif.Model.CsrOps
import Verif.Lemmas.CsrOps
import Verif.Lemmas.CsrSort
import Verif.Lemmas.CsrDedup
import Verif.Props.Csr
import Verif.Props.Csr2
import Verif.Props.CsrSort
import Verif.Spec.Binary
import Verif.Model.Binary
import Verif.Lemmas.Binary
import Verif.Lemmas.BinaryFiles
import Verif.Model.Dispatch
import Verif.Props.Binary
import Verif.Props.Binary2
import Verif.Model.Write
import Verif.Spec.Write
import Verif.Lemmas.Write
import Verif.Lemmas.WriteTensor
import Verif.Lemmas.Words
import Verif.Props.Write
import Verif.Model.Tensor
import Verif.Spec.Tensor
import Verif.Lemmas.Tensor
import Verif.Lemmas.TensorFile
import Verif.Lemmas.TensorSpec
import Verif.Lemmas.TensorOrder
import Verif.Lemmas.TensorLoad
import Verif.Props.Tensor
import Verif.Model.Graph
import Verif.Lemmas.Graph
import Verif.Props.Graph
import Verif.Model.GraphFile
import Verif.Spec.GraphFile
import Verif.Lemmas.GraphTokens
import Verif.Lemmas.GraphFile
import Verif.Lemmas.GraphExec
import Verif.Lemmas.GraphLoad
import Verif.Lemmas.GraphRows
import Verif.Props.GraphFile
import Verif.Props.GraphFile2
import Verif.Model.Life
import Verif.Spec.Life
import Verif.Lemmas.Life
import Verif.Props.Lifecycle
import Verif.Model.LifeCsr
import Verif.Lemmas.LifeCsr
import Verif.Props.Lifecycle2
import Verif.Model.FileObj
import Verif.Props.FileObj
import Verif.Props.Fp
import Verif.Props.Stb
import Verif.Model.StbFp
import Verif.Spec.Ieee
import Verif.Lemmas.Ieee
import Verif.Lemmas.StbScale
import Verif.Lemmas.StbCrude
import Verif.Lemmas.StbTiny
import Verif.Lemmas.StbHuge
import Verif.Lemmas.StbNeg
import Verif.Props.StbFp
import Verif.Model.FpDouble
import Verif.Lemmas.FpDouble
import Verif.Lemmas.FpText
import Verif.Props.FpDouble
import Verif.Spec.GraphText
import Verif.Props.CsrFile
import Verif.Model.Examples
import Verif.Spec.Examples
import Verif.Lemmas.Examples
import Verif.Props.Examples
import Verif.Spec.RowsOf
import Verif.Props.CrossFile
import Verif.Lemmas.Robust
import Verif.Props.Robust
import Verif.Lemmas.GraphAny
import Verif.Lemmas.GraphAny2
import Verif.Lemmas.GraphAny3
import Verif.Lemmas.GraphAny4
import Verif.Lemmas.GraphAny5
import Verif.Props.GraphAny
import Verif.Model.Throw
import Verif.Spec.Throw
import Verif.Lemmas.Throw
import Verif.Lemmas.ThrowErase
import Verif.Lemmas.ThrowPost
import Verif.Props.Throw
import Verif.Spec.Race
import Verif.Model.Race
import Verif.Lemmas.Race
import Verif.Lemmas.RaceErase
import Verif.Lemmas.RaceBin
import Verif.Lemmas.RaceCsr
import Verif.Lemmas.RaceEl
import Verif.Lemmas.RaceOps
import Verif.Lemmas.RaceText
import Verif.Lemmas.RaceGraph
import Verif.Lemmas.RaceFile
import Verif.Props.Race
import Verif.Lemmas.TensorAny
import Verif.Lemmas.TensorTail
import Verif.Lemmas.TensorCut
import Verif.Lemmas.TensorTorn
import Verif.Props.TensorText
import Verif.Props.TensorLast
import Verif.Props.Total
import Verif.Lemmas.WeightedAny
import Verif.Lemmas.WeightedLoop
import Verif.Lemmas.WeightedExec
import Verif.Lemmas.WeightedLines
import Verif.Lemmas.WeightedTwo
import Verif.Lemmas.WeightedCut
import Verif.Spec.Weighted
import Verif.Props.WeightedText
import Verif.Lemmas.WeightedFlags
import Verif.Lemmas.WeightedFlags2
import Verif.Props.WeightedFlags
import Verif.Props.WeightedCutFp
import Verif.Props.WeightedCutInt
import Verif.Lemmas.TensorSafe
import Verif.Props.TensorWeighted
import Verif.Model.Crash
import Verif.Spec.Crash
import Verif.Lemmas.Crash
import Verif.Lemmas.CrashStates
import Verif.Lemmas.CrashLoad
import Verif.Lemmas.CrashBlank
import Verif.Lemmas.CrashText
import Verif.Lemmas.CrashReach
import Verif.Props.Crash
import Verif.Spec.Cut
import Verif.Props.Cut
import Verif.Model.FileRes
import Verif.Props.FileRes
import Verif.Model.Fail
import Verif.Lemmas.Fail
import Verif.Props.Fail
import Verif.Props.Memory
import Verif.Model.Wide
import Verif.Spec.Wide
import Verif.Props.Wide
import Verif.Model.Align
import Verif.Props.Align
import Verif.Model.Sizes
import Verif.Props.Sizes
import Verif.Props.AlignGraph
import Verif.Props.AlignExact
import Verif.Props.MemoryGraph
import Verif.Props.CutGraph
import Verif.Props.CrashGraph
import Verif.Props.CrashAuto
import Verif.Model.Programs
import Verif.Spec.Programs
import Verif.Props.Programs
import Verif.Model.SignedFiles
import Verif.Model.Signed
import Verif.Lemmas.Signed
import Verif.Lemmas.SignedText
import Verif.Props.Signed
import Verif.Spec.Small
import Verif.Lemmas.SignedFiles
import Verif.Lemmas.SignedSmall
import Verif.Lemmas.SignedSmall2
import Verif.Lemmas.SignedSmall3
import Verif.Props.SignedFiles
import Verif.Spec.Cleaner
import Verif.Props.Cleaner
import Verif.Model.Release
import Verif.Spec.Release
import Verif.Lemmas.Release
import Verif.Props.Release
import Verif.Model.Session
import Verif.Spec.Session
import Verif.Lemmas.Session
import Verif.Lemmas.SessionOps
import Verif.Lemmas.SessionDups
import Verif.Lemmas.SessionFile
import Verif.Lemmas.SessionText
import Verif.Lemmas.SessionRun
import Verif.Props.Session
import Verif.Spec.SessionLoad
import Verif.Props.SessionLoad
import Verif.Spec.SessionSort
import Verif.Props.SessionSort
import Verif.Props.SessionRetype
import Verif.Props.SessionTensor
import Verif.Lemmas.WeightedRest
import Verif.Model.Retype
import Verif.Spec.Retype
import Verif.Lemmas.Retype
import Verif.Lemmas.RetypeDups
import Verif.Props.Retype
import Verif.Props.Retype2
import Verif.Model.Alias
import Verif.Spec.Alias
import Verif.Lemmas.Alias
import Verif.Lemmas.AliasObj
import Verif.Lemmas.AliasRun
import Verif.Lemmas.AliasStep
import Verif.Props.Alias
import Verif.Model.EdgeIter
import Verif.Spec.EdgeIter
import Verif.Lemmas.EdgeIter
import Verif.Props.EdgeIter
import Verif.Model.Container
import Verif.Spec.Container
import Verif.Props.Container
import Verif.Props.WriteZero
import Verif.Spec.Special
import Verif.Lemmas.FpAny
import Verif.Lemmas.WeightedStored
import Verif.Lemmas.SpecialText
import Verif.Lemmas.SpecialLoad
import Verif.Props.Special
import Verif.Props.SpecialTensor
import Verif.Props.FreeText
import Verif.Tests.Data
import Verif.Tests.Base
import Verif.Tests.Coo
import Verif.Props.GraphComments
import Verif.Spec.Loose
import Verif.Lemmas.Loose
import Verif.Props.GraphUse
import Verif.Tests.Csr
import Verif.Tests.Tensor
import Verif.Model.SignedGraphs
import Verif.Lemmas.SignedGraphs
import Verif.Props.SignedGraphs
