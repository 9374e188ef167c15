import Verif.Go.Basic
import Verif.Go.Hex
import Verif.Go.Base32
import Verif.Go.Base32Lemmas
import Verif.Uid
import Verif.Props.Uid
import Verif.Tree.Model
import Verif.Tree.Spec
import Verif.Tree.Inv
import Verif.Tree.Exec
import Verif.Props.Tree
import Verif.Tree.Dump
import Verif.Tree.LoadProofs
import Verif.Tree.DumpProofs
import Verif.Tree.DumpLoop
import Verif.Props.Dump
import Verif.Json.Str
import Verif.Json.Parse
import Verif.Json.ParseProofs
import Verif.Go.Base64
import Verif.Go.Sort
import Verif.Json.Dump
import Verif.Json.DumpProofs
import Verif.Json.San
import Verif.Json.Depth
import Verif.Json.Utf8
import Verif.Space.Model
import Verif.Props.Json
import Verif.Ws.Branch
import Verif.Props.Branch
import Verif.Ws.Model
import Verif.Ws.Commit
import Verif.Props.Ws
import Verif.Fs.Path
import Verif.Props.Path
import Verif.Mount.Model
import Verif.Props.Mount
import Verif.World.Content
import Verif.World.Disk
import Verif.World.Prog
import Verif.World.Manager
import Verif.World.Trace
import Verif.World.Pool
import Verif.World.PoolInv
import Verif.World.PoolRec
import Verif.World.PoolMnt
import Verif.World.OwnInv
import Verif.World.Settle
import Verif.Tree.Keyed
import Verif.Props.Pool
import Verif.World.Wpm
import Verif.World.Seq
import Verif.World.SeqIo
import Verif.World.SeqCmd
import Verif.World.SeqCommit
import Verif.World.SeqMove
import Verif.World.SeqInit
import Verif.World.SeqEdit
import Verif.World.Sound
import Verif.World.Reads
import Verif.World.History
import Verif.World.Reopen
import Verif.World.After
import Verif.World.Invariant
import Verif.World.Total
import Verif.Props.Commands
import Verif.Props.Moves
import Verif.Props.Branches
import Verif.Props.Edits
import Verif.Props.Frames
import Verif.Props.Safety
import Verif.Props.Initial
import Verif.Props.Overlap
import Verif.Props.Live
import Verif.Props.Stories
import Verif.Props.Examples
import Verif.Layer.Model
import Verif.Props.Layer
import Verif.Misc.Locks
import Verif.Props.Locks
import Verif.Misc.Race
import Verif.Props.Race
import Verif.Misc.Alias
import Verif.Props.Alias
import Verif.Misc.Signal
import Verif.Props.Signal
import Verif.Misc.Prepare
import Verif.Props.Prepare
import Verif.Ws.Time
import Verif.Props.Time
import Verif.Props.Log
import Verif.World.Mono
import Verif.Props.LogWorld
import Verif.Props.MoreExamples
import Verif.Cli.Flags
import Verif.Cli.Find
import Verif.Cli.Run
import Verif.Cli.Parse
import Verif.Cli.Number
import Verif.Props.Cli
import Verif.Props.CliWorld
import Verif.Props.Frozen
import Verif.Props.FrozenExamples
import Verif.Json.Extra
import Verif.World.Whole
import Verif.World.WholeInv
import Verif.Props.Whole
import Verif.Props.WholePast
import Verif.Props.Owner
import Verif.Props.Killed
import Verif.Props.Later
import Verif.Props.LaterExamples
import Verif.World.Shut
import Verif.Props.Clash
import Verif.Props.ClashExamples
import Verif.World.Local
import Verif.World.Together
import Verif.World.Within
import Verif.Props.Serial
import Verif.Props.SerialExamples
import Verif.Props.Lines
import Verif.Props.LinesWorld
import Verif.Props.Refused
import Verif.Props.Tidy
import Verif.Props.RefusedExamples
import Verif.World.Process
import Verif.Props.Process
import Verif.Props.Between
import Verif.Props.Started
import Verif.Props.BetweenExamples
import Verif.Props.Taken
import Verif.Props.TakenExamples
import Verif.World.Inside
import Verif.Props.Inside
import Verif.Props.InsideExamples
import Verif.Go.Rand
import Verif.World.Repeat
import Verif.Props.Repeat
import Verif.Props.RepeatExamples
import Verif.Misc.Errors
import Verif.Props.Errors
import Verif.Props.GitSpec
import Verif.Props.Git
import Verif.Props.GitExamples
import Verif.Props.Aside
import Verif.Props.AsideExamples
import Verif.Props.Cost
import Verif.Props.CostExamples
import Verif.Props.Elsewhere
import Verif.Props.ElsewhereExamples
import Verif.Props.Cases
import Verif.Props.Node
import Verif.Props.UidPanic
import Verif.Props.Subtree
import Verif.Props.Crash
import Verif.Json.Spell
import Verif.Json.Grammar
import Verif.Props.Lenient
import Verif.Misc.AliasTree
import Verif.Props.Shared
import Verif.Props.Numerals
import Verif.Props.Layout
import Verif.Misc.Linear
import Verif.Props.Linear
import Verif.Misc.NodeLock
import Verif.Props.NodeLock
import Verif.World.Beside
import Verif.Props.Moment
import Verif.Props.MomentMixed
import Verif.Props.MomentExamples
import Verif.World.Cwd
import Verif.Props.Cwd
import Verif.Props.CwdLost
import Verif.Props.CwdExamples
import Verif.World.Below
import Verif.Props.Below
import Verif.Props.BelowExamples
import Verif.Props.BelowEdit
import Verif.Props.CwdEdit
import Verif.World.Inner
import Verif.Props.InnerSim
import Verif.Props.Inner
import Verif.Props.InnerExamples
import Verif.Props.InnerEdit
import Verif.Props.InnerClone
import Verif.Props.InnerInit
import Verif.Props.InnerEditExamples
import Verif.Props.TwoRoots
import Verif.Props.TwoRootsExamples
import Verif.Props.Moved
import Verif.Props.MovedExamples
import Verif.Props.Restored
import Verif.Props.RestoredExamples
import Verif.Props.LinkOwner
import Verif.Props.LinkOwnerExamples
import Verif.Misc.Parents
import Verif.Props.Parents
import Verif.Props.Limit
import Verif.Props.LimitExamples
import Verif.Props.Again
import Verif.Props.AgainEdit
import Verif.Props.AgainNew
import Verif.Props.AgainExamples
import Verif.Props.Twice
import Verif.Props.TwiceExamples
import Verif.Props.Undo
import Verif.Props.UndoExamples
import Verif.Props.RoundTrip
import Verif.Props.RoundTripExamples
import Verif.Props.AgainDelete
import Verif.Props.AgainDeleteExamples
import Verif.Props.EitherOrder
import Verif.Props.EitherOrderExamples
import Verif.Props.NewBranch
import Verif.Props.NewBranchExamples
import Verif.Props.NamesAndWork
import Verif.Props.NamesAndWorkExamples
import Verif.Props.HandOver
import Verif.Props.HandOverExamples
import Verif.Props.Start
import Verif.Props.StartExamples
import Verif.Props.SameCommit
import Verif.Props.SameCommitExamples
