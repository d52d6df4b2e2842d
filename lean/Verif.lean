import Verif.Props.Macro
import Verif.Props.CommandLine
import Verif.Props.Comments
import Verif.Props.Names
import Verif.Props.LineReader
import Verif.Props.Graph
import Verif.Props.Scheduler
import Verif.Props.JobTree
import Verif.Props.FileInfo
import Verif.Props.UpToDate
import Verif.Props.Inference
import Verif.Model.Preprocessor
import Verif.Spec.Preprocessor
import Verif.Proofs.PPRead
import Verif.Proofs.PPSim
import Verif.Proofs.PPLine
import Verif.Proofs.PPExec
import Verif.Proofs.PPBal
import Verif.Proofs.PPTerm
import Verif.Props.Preprocessor
import Verif.Model.Expr
import Verif.Model.ExprLex
import Verif.Spec.Expr
import Verif.Spec.ExprText
import Verif.Proofs.ExprTab
import Verif.Proofs.ExprRules
import Verif.Proofs.ExprSound
import Verif.Proofs.ExprRun
import Verif.Proofs.ExprLex
import Verif.Props.Expr
import Verif.Model.Options
import Verif.Spec.Options
import Verif.Proofs.Options
import Verif.Proofs.OptionsMeans
import Verif.Proofs.OptionsArgs
import Verif.Proofs.OptionsMacros
import Verif.Props.Options
import Verif.Model.Process
import Verif.Props.Process
import Verif.Model.CommandExec
import Verif.Spec.CommandExec
import Verif.Proofs.CommandExec
import Verif.Props.CommandExec
import Verif.Props.InlineFiles
import Verif.Model.FileMacros
import Verif.Spec.FileMacros
import Verif.Proofs.FileMacros
import Verif.Props.FileMacros
import Verif.Model.Blocks
import Verif.Spec.Blocks
import Verif.Proofs.Blocks
import Verif.Proofs.Sync
import Verif.Props.Blocks
import Verif.Model.Parser
import Verif.Spec.Line
import Verif.Spec.Parser
import Verif.Spec.Source
import Verif.Proofs.ParserLines
import Verif.Proofs.Parser
import Verif.Proofs.ParserBack
import Verif.Proofs.PPSticky
import Verif.Props.Parser
import Verif.Proofs.UpToDate
import Verif.Model.Make
import Verif.Spec.Make
import Verif.Spec.MakeRun
import Verif.Proofs.MakeTest
import Verif.Proofs.MakeCone
import Verif.Proofs.MakeRefine
import Verif.Proofs.MakeNull
import Verif.Proofs.MakeSecond
import Verif.Proofs.MakeSecondRun
import Verif.Props.NullBuild
import Verif.Props.SecondBuild
import Verif.Spec.Inference
import Verif.Model.Prepare
import Verif.Spec.Setup
import Verif.Proofs.Prepare
import Verif.Proofs.PrepareTable
import Verif.Props.Setup
import Verif.Proofs.MakeRecords
import Verif.Proofs.Build
import Verif.Props.Build
import Verif.Spec.Content
import Verif.Proofs.MakeContent
import Verif.Proofs.MakeSame
import Verif.Props.Content
import Verif.Model.Wildcards
import Verif.Props.Wildcards
import Verif.Model.Whole
import Verif.Proofs.Slashless
import Verif.Props.Whole
import Verif.Model.PPExpr
import Verif.Proofs.PPText
import Verif.Props.Text
import Verif.Model.Main
import Verif.Spec.Main
import Verif.Proofs.MainEnv
import Verif.Proofs.MainMacros
import Verif.Proofs.MainErrors
import Verif.Proofs.SchedDump
import Verif.Props.Main
import Verif.Proofs.MainStart
import Verif.Props.Start
import Verif.Model.ProcessLife
import Verif.Props.ProcessLife
import Verif.Props.Lines
import Verif.Spec.Script
import Verif.Props.Script
import Verif.Model.Reader
import Verif.Spec.Reader
import Verif.Props.Reader
import Verif.Props.Positions
import Verif.Props.Instance
import Verif.Props.Dump
import Verif.Props.TempFiles
import Verif.Proofs.DryRun
import Verif.Proofs.DryRunRun
import Verif.Proofs.MakeStale
import Verif.Props.DryRun
import Verif.Proofs.MakeSpare
import Verif.Proofs.MakePlain
import Verif.Proofs.MakeSplit
import Verif.Props.Rebuild
import Verif.Props.KeepGoing
import Verif.Props.Resume
import Verif.Props.Batch
import Verif.Props.EndToEnd
import Verif.Props.Encoding
import Verif.Props.EndFailures
import Verif.Props.Idle
import Verif.Props.IdleParent
import Verif.Props.Report
import Verif.Props.BuildInfo
import Verif.Props.ParserPos
import Verif.Spec.Jobs
import Verif.Proofs.MakeJobs
import Verif.Props.Jobs
import Verif.Props.EndJobs
import Verif.Proofs.MakeFailures
import Verif.Proofs.MakeResumeKeep
import Verif.Props.Failures
import Verif.Props.EndFailJobs
import Verif.Model.Timed
import Verif.Spec.Chain
import Verif.Proofs.SchedFull
import Verif.Proofs.SchedTime
import Verif.Props.Speed
import Verif.Model.TimedMake
import Verif.Props.EndSpeed
import Verif.Props.TreeSpeed
import Verif.Model.Handles
import Verif.Spec.Handles
import Verif.Proofs.Handles
import Verif.Props.Handles
import Verif.Props.Retried
import Verif.Model.Abort
import Verif.Spec.Abort
import Verif.Proofs.Abort
import Verif.Props.Abort
import Verif.Proofs.SchedLower
import Verif.Props.MoreJobs
import Verif.Props.EndMoreJobs
import Verif.Model.ShowInline
import Verif.Spec.ShowInline
import Verif.Props.ShowInline
import Verif.Model.AcquireFail
import Verif.Proofs.AcquireFail
import Verif.Props.AcquireFail
import Verif.Props.JobTreeAbort
import Verif.Props.TreeStuck
import Verif.Props.ReleaseFail
import Verif.Props.NotParallel
import Verif.Props.Forest
