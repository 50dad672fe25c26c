import Verif.Props.Codec
import Verif.Props.Parsing
import Verif.Props.Adder
import Verif.Props.AdderMore
import Verif.Props.AdderExact
import Verif.Props.Reader
import Verif.Props.ReaderExact
import Verif.Props.WalkExact
import Verif.Props.Dir
import Verif.Props.Builder
import Verif.Props.Build
import Verif.Props.Built
import Verif.Props.BuildAll
import Verif.Props.Walk
import Verif.Props.WalkTrees
import Verif.Props.WalkMore
import Verif.Props.EndToEnd
import Verif.Props.Access
import Verif.Props.Refusals
import Verif.Props.DirExact
import Verif.Props.Orders
import Verif.Props.Absent
import Verif.Props.BlockSizes
import Verif.Props.Crash
import Verif.Props.Missing
import Verif.Props.DirRoot
import Verif.Release
import Verif.Spec.Release
import Verif.ReleaseLemmas
import Verif.Props.Release
import Verif.Props.ReleasePanics
import Verif.Props.ReleasePaths
import Verif.Examples
import Verif.Spec.Stores
import Verif.Spec.Listing
import Verif.Props.Cat
import Verif.Props.Get
import Verif.Spec.Resolving
import Verif.Props.Resolve
import Verif.Props.AddExample
import Verif.Props.StorePath
import Verif.Props.IpfsPaths
import Verif.Props.BuildExamples
import Verif.Props.Options
import Verif.Ingest
import Verif.LinkTotals
import Verif.Spec.AtPath
import Verif.Spec.Archives
import Verif.Props.Reported
import Verif.Props.EachPath
import Verif.Props.AdderFinish
import Verif.Props.Ingest
import Verif.Props.IngestRun
import Verif.Props.IngestTar
import Verif.Props.IngestWalk
import Verif.Props.IngestOrder
import Verif.Props.IngestExample
import Verif.Spec.Chains
import Verif.Props.Ends
import Verif.Props.Prefetch
import Verif.Props.Pending
import Verif.Props.AdderKeeps
import Verif.Spec.Text
import Verif.TextLemmas
import Verif.Props.Text
import Verif.Spec.Amounts
import Verif.Props.Amounts
import Verif.Spec.Escaping
import Verif.Props.Escaping
import Verif.Spec.ReadAlone
import Verif.Props.ReadAlone
import Verif.Spec.RootNames
import Verif.Props.RootNames
import Verif.Spec.OtherNames
import Verif.Props.OtherNames
import Verif.Spec.Cids
import Verif.Props.Cids
import Verif.Display
import Verif.Spec.Debugging
import Verif.Props.Debugging
import Verif.ErrorText
import Verif.TextShown
import Verif.Spec.ErrorTexts
import Verif.Props.ErrorTexts
import Verif.Props.ErrorTells
import Verif.Props.ListingText
import Verif.DebugText
import Verif.Spec.Debugs
import Verif.Props.Debugs
import Verif.ErrorSource
import Verif.Spec.Causes
import Verif.Props.Causes
import Verif.CidText
import Verif.Spec.CidTexts
import Verif.Props.CidText
import Verif.Props.CidTextExact
import Verif.Programs
import Verif.Spec.Programs
import Verif.Props.Programs
import Verif.Reserve
import Verif.Spec.Reserving
import Verif.Props.Reserving
import Verif.FileTimes
import Verif.Spec.Times
import Verif.Props.Times
import Verif.ReleaseParse
import Verif.Spec.ReleaseParse
import Verif.ReleaseParseLemmas
import Verif.Props.ReleaseParse
import Verif.ReleaseRun
import Verif.Spec.ReleaseRun
import Verif.Props.ReleaseRun
import Verif.Narrow
import Verif.Spec.Narrow
import Verif.NarrowExact
import Verif.Spec.NarrowPanics
import Verif.NarrowOverflow
import Verif.NarrowRun
import Verif.Spec.NarrowRun
import Verif.Props.Narrow
import Verif.Props.NarrowRun
import Verif.Spec.ReleaseWalk
import Verif.ReleaseWalk
import Verif.Props.ReleaseWalk
import Verif.Props.ReleaseSafe
import Verif.Spec.Verified
import Verif.Props.Verified
import Verif.Spec.ReleaseEnds
import Verif.Props.ReleaseEnds
import Verif.Props.ReleaseVerified
import Verif.Spec.ReleaseAmounts
import Verif.Props.ReleaseAmounts
import Verif.Spec.Sharing
import Verif.Props.Sharing
import Verif.Props.Locality
import Verif.Spec.Asking
import Verif.Props.Asking
import Verif.Spec.DepthFirst
import Verif.Props.DepthFirst
import Verif.Spec.Agreeing
import Verif.Props.Agreeing
import Verif.Spec.Opening
import Verif.Props.Lookable
import Verif.Spec.AddingUp
import Verif.Props.Parts
import Verif.Spec.Strict
import Verif.Props.Strict
import Verif.Spec.LevelOrder
import Verif.Props.LevelOrder
import Verif.Spec.Exporting
import Verif.Props.Exporting
import Verif.Props.Overhead
import Verif.Spec.Holding
import Verif.Props.Holding
import Verif.Spec.HoldingRel
import Verif.Props.HoldingRel
import Verif.Spec.ReleasePlaces
import Verif.ReleasePlaces
import Verif.ReleasePlacesInv
import Verif.ReleasePlacesStep
import Verif.Props.ReleasePlaces
import Verif.Spec.ReleaseRefusals
import Verif.Props.ReleaseRefusals
import Verif.Spec.ReleaseLookups
import Verif.Props.ReleaseLookups
import Verif.Spec.ReleaseTrees
import Verif.IterAllR
import Verif.Props.ReleaseTrees
import Verif.IoFail
import Verif.Props.IoFail
import Verif.ExamplesRel
import Verif.Props.ExamplesRel
import Verif.IoFailResolve
import Verif.Props.IoFailResolve
import Verif.AddProcess
import Verif.Spec.AddProcess
import Verif.Props.AddProcess
import Verif.Spec.ReleaseDepthFirst
import Verif.Props.ReleaseDepthFirst
import Verif.Spec.ReleaseReadAlone
import Verif.Props.ReleaseReadAlone
import Verif.Sha256
import Verif.Fixtures
import Verif.Vectors
