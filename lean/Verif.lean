import Verif.Spec
import Verif.Basic
import Verif.Node
import Verif.Smo2
import Verif.PmlSeq
import Verif.Config
import Verif.Props.Seq
import Verif.Props.Api
import Verif.Props.Page
import Verif.Props.Shape
import Verif.Props.Bulk
import Verif.Props.Size
import Verif.PslConc
import Verif.ConcLogic
import Verif.ConcStep3
import Verif.PslConcOk
import Verif.Props.PslBad
import Verif.Props.PslGood
import Verif.OslConcOk
import Verif.Props.OslBad
import Verif.Props.OslGood
import Verif.Props.Seqlock
import Verif.Props.Meta
import Verif.IterConc
import Verif.PmlConc
import Verif.Props.PmlBad
import Verif.PartOk
import Verif.PmlScanOk
import Verif.PmlConcOk
import Verif.PmlLive
import Verif.Props.PmlGood
import Verif.OmlConc
import Verif.OmlNavOk
import Verif.OmlSmoOk
import Verif.OmlConcOk
import Verif.Props.OmlBad
import Verif.Props.OmlGood
import Verif.Iters
import Verif.Props.Iters
import Verif.Bytes
import Verif.FixBytes
import Verif.FixBytesOk
import Verif.FixSmoOk
import Verif.FixReadOk
import Verif.PageRun
import Verif.Props.Bytes
import Verif.VarBytes
import Verif.VarLayOk
import Verif.VarBytesOk
import Verif.VarSmoOk
import Verif.VarReadOk
import Verif.VarRun
import Verif.Props.VarBytes
import Verif.ConcScan
import Verif.LeafScan
import Verif.PslScanOk
import Verif.OscanPart
import Verif.OslScanOk
import Verif.Props.ScanBad
import Verif.ConcSolo
import Verif.Props.Solo
import Verif.Props.PslScan
import Verif.Props.OptScan
import Verif.SpecTorn
import Verif.Props.Torn
import Verif.SizeInv
import Verif.LockVis
import Verif.LockRun
import Verif.LockBlink
import Verif.LockPsl
import Verif.LockOsl
import Verif.LockOml
import Verif.Props.Locks
import Verif.LockSolo
import Verif.DropScans
import Verif.Props.SoloLocks
import Verif.ConcFrom
import Verif.LoadRun
import Verif.SpecLoad
import Verif.Props.Loaded
import Verif.Mild
import Verif.Props.Steady
import Verif.Props.Retired
import Verif.OmlFree
import Verif.OmlLive
import Verif.Props.OmlLocks
import Verif.Props.PmlLoaded
import Verif.Props.PmlPhases
import Verif.Props.BlinkPhases
import Verif.Props.OmlPhases
import Verif.Props.PhaseShape
