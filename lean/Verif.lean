import Verif.Common.Bytes
import Verif.Common.Map
import Verif.Wire.Props
import Verif.Discovery.Props
import Verif.Fragment.Props
import Verif.Reliability.Props
import Verif.Replicator.Props
import Verif.Mac.Props
import Verif.Estop.Props
import Verif.Guard.Props
import Verif.NetFilter.Props
import Verif.Peers.Props
import Verif.Optimize.Props
import Verif.Ring.SpscProps
import Verif.Ring.MpscProps
import Verif.Ring.MpscOne
import Verif.Ring.SpmcProps
import Verif.Ring.BroadcastProps
import Verif.Topic.Props
import Verif.Fanout.Props
import Verif.Fanout.Claim
import Verif.Pool.Progress
import Verif.Pool.Shape
import Verif.Sched.DispatchGraph
import Verif.Sched.FailureProps
import Verif.Safety.LatchProps
import Verif.Safety.WatchdogProps
import Verif.Safety.RateProps
import Verif.Blackbox.Props
import Verif.ShmNet.Read
import Verif.Presence.Props
import Verif.Actions.Cancel
import Verif.Actions.Client
import Verif.Service.Props
import Verif.Params.Store
import Verif.LogBuf.Fields
import Verif.LogBuf.Ring
import Verif.Handle.Props
import Verif.Handle.Pure
import Verif.Serde.Limits
import Verif.Handle.Sole
import Verif.Replay.RunProps
import Verif.Loop.LifeThms
import Verif.Loop.LifeEnd
import Verif.Loop.LifeInit
import Verif.Loop.PaceThms
import Verif.Loop.EventThms
import Verif.Replay.BpProps
import Verif.Region.Share
import Verif.Region.Backed
import Verif.Region.Header
import Verif.Region.Names
import Verif.Msg.Model
import Verif.Msg.Layout
import Verif.Msg.Decode
import Verif.Msg.Parse
import Verif.Msg.Hash
import Verif.Percept.Grid
import Verif.Percept.World
import Verif.Percept.Image
import Verif.Percept.Cloud
import Verif.Time.Context
import Verif.Time.Clock
import Verif.Sched.Late
import Verif.Build.Builder
import Verif.Build.Period
import Verif.Build.Names
import Verif.Handle.Wait
import Verif.Handle.Peek
import Verif.Pkg.Resolve
import Verif.Pkg.Lock
import Verif.Pkg.Save
import Verif.Pkg.Trust
import Verif.Pkg.Extract
import Verif.Pkg.Install
import Verif.Pkg.Verify
import Verif.Pool.Keep
import Verif.Launch.Order
import Verif.Launch.Watch
import Verif.Util.Similar
import Verif.Util.Retry
import Verif.Msg.Text
import Verif.Msg.Generic
import Verif.Time.Rate
import Verif.Drivers.Exec
import Verif.Drivers.Load
import Verif.Sched.Registry
import Verif.Util.Telemetry
import Verif.Msg.Geometry
import Verif.Loop.Account
import Verif.Sched.Profiler
import Verif.Pkg.Sandbox
import Verif.Pkg.Clean
import Verif.Build.Hooks
import Verif.Util.Shell
import Verif.Build.Deploy
import Verif.Build.Workspace
import Verif.Build.NativeSync
import Verif.Build.PipSync
import Verif.Wire.Endian
import Verif.Sched.Affinity
import Verif.Ring.Copy
import Verif.Ffi.Action
import Verif.Ffi.Service
import Verif.Ffi.Builder
import Verif.Py.Node
import Verif.Py.Sched
import Verif.Pool.Wait
import Verif.Replicator.EventLoop
import Verif.Guard.Lifecycle
import Verif.Replay.Tool
import Verif.Replay.Prune
import Verif.Replay.Export
import Verif.Tf.Record
import Verif.Tf.Diff
import Verif.Msg.Lex
import Verif.Sched.Report
import Verif.Sched.Stats
import Verif.Wire.Priority
import Verif.Build.SourceTable
import Verif.Build.Source
import Verif.Util.Prefixed
import Verif.Build.Ignore
import Verif.Build.Lint
import Verif.Tf.Reader
import Verif.Peers.Timer
import Verif.Ffi.Pool
import Verif.Ffi.Layout
import Verif.Msg.Emit
import Verif.Sched.NoAlloc
import Verif.Util.Device
import Verif.Handle.Observe
import Verif.Build.Features
import Verif.Handle.Mock
import Verif.Topic.Pod
import Verif.Py.Topic
import Verif.Py.View
import Verif.Py.Numpy
import Verif.Pkg.Publish
import Verif.Params.Cli
import Verif.Build.Imports
import Verif.Pkg.Cache
import Verif.Drivers.Urdf
import Verif.LogBuf.View
import Verif.Build.ApiDiff
import Verif.Build.Migrate
import Verif.Util.ShellRc
import Verif.Build.RunBin
import Verif.Util.ErrText
import Verif.Discovery.Update
import Verif.Pool.Attach
import Verif.Sched.Refresh
import Verif.LogBuf.Attach
import Verif.Ffi.Text
import Verif.Build.NodeMacro
import Verif.Service.Gateway
import Verif.Actions.GoalFile
import Verif.Service.CliNames
import Verif.Pkg.ForeignArgs
import Verif.Pkg.CargoEdit
import Verif.Py.Values
import Verif.Ffi.Handles
import Verif.Ffi.Lambda
import Verif.Pkg.PyPi
import Verif.Pkg.Update
import Verif.Pkg.DepInstall
import Verif.Presence.NodeList
import Verif.Pkg.PluginBin
import Verif.Pkg.Uninstall
import Verif.Pkg.AddDep
import Verif.Fanout.Spill
import Verif.Guard.Config
import Verif.Region.TopicList
import Verif.Build.Members
import Verif.Replay.Inject
import Verif.Build.Proxy
import Verif.Pkg.LockCheck
import Verif.Build.SysDeps
import Verif.Pkg.SelfUpdate
import Verif.LogBuf.Attribute
import Verif.Sched.Owner
import Verif.Topic.Migrate
import Verif.Topic.Follow
import Verif.Topic.Join
import Verif.Serde.Single
import Verif.Build.New
import Verif.Actions.Locks
import Verif.Common.Locks
import Verif.Params.Locks
import Verif.Safety.Locks
import Verif.Py.Gil
import Verif.Pkg.PluginList
import Verif.Pkg.CleanRun
import Verif.Tf.Calib
import Verif.Tf.HandEye
import Verif.Pkg.DepSpec
import Verif.Pkg.PyReq
import Verif.Msg.Scan
import Verif.Build.ManPlace
import Verif.Build.Langs
import Verif.Build.FmtLint
import Verif.Blackbox.View
import Verif.Launch.Registry
import Verif.Build.CheckPy
import Verif.Pkg.Precompile
import Verif.Pkg.Source
import Verif.Build.CppBinary
import Verif.Build.AptDeps
import Verif.Build.CompileCommands
import Verif.Build.TestCmd
