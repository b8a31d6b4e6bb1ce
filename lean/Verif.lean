import Verif.Common
import Verif.ListUtil
import Verif.Slice.Props
import Verif.Range.Props
import Verif.CList.Props
import Verif.VClock.Props
import Verif.Netstring.Props
import Verif.Serial.Props
import Verif.Graph.Props
import Verif.Graph.Bytes
import Verif.Search.Props
import Verif.Str.Utf8
import Verif.Str.Seq
import Verif.Deact.Eta
import Verif.Deact.Attrs
import Verif.Dict.Compare
import Verif.Set.Props
import Verif.Sort.Props
import Verif.Int.Props
import Verif.Hex.Props
import Verif.Uri.Props
import Verif.Time.Props
import Verif.Diff.Props
import Verif.Diff.Hunks
import Verif.Skiplist.Props
import Verif.Ring.Props
import Verif.Queue.Props
import Verif.Rts.Props
import Verif.Db.Model
import Verif.Db.Props
import Verif.Txn.Model
import Verif.Txn.Lemmas
import Verif.Txn.Exclusive
import Verif.Txn.Atomic
import Verif.View.Model
import Verif.View.Props
import Verif.Quorum.Model
import Verif.Quorum.Props
import Verif.Iter.Model
import Verif.Iter.Props
import Verif.Comm.Props
import Verif.Big.Props
import Verif.Big.TextProps
import Verif.Sched.Model
import Verif.Sched.Props
import Verif.Sched.Pause
import Verif.Sched.Timer
import Verif.Conv.Props
import Verif.Bytes.Pad
import Verif.Http.Witness
import Verif.Persist.Witness
import Verif.Glob.Link
import Verif.Random.Props
import Verif.Xml.Props
import Verif.Ty.Lemmas
import Verif.Mro.Props
import Verif.Unify.Props
import Verif.Names.Props
import Verif.Names.Keywords
import Verif.Kinds.Props
import Verif.Argparse.Reject
import Verif.Norm.Props
import Verif.Cps.Props
import Verif.Cast.Props
import Verif.Hash.Props
import Verif.Hash.DepsProps
import Verif.Hash.WalkProps
import Verif.Trans.Props
import Verif.Lift.Props
import Verif.Build.Props
import Verif.Incr.Props
import Verif.Notify.Marks
import Verif.Unbox.Props
import Verif.Unbox.Cond
import Verif.Json.Grammar
import Verif.Plan.Projects
import Verif.Plan.Watch
import Verif.Plan.Prune
import Verif.Plan.Discover
import Verif.Uri.Parse
import Verif.Finger.Props
import Verif.Plan.TypePaths
import Verif.Paths.Props
import Verif.Net.TcpAgain
import Verif.Net.UdpProps
import Verif.Log.Refuted
import Verif.Proc.RunProps
import Verif.Proc.SignalProps
import Verif.Proc.StdinProps
import Verif.Proc.EnvProps
import Verif.Knots.Props
import Verif.Zon.Deps
import Verif.Seed.Props
import Verif.PkgShow.Props
import Verif.Fetch.Mask
import Verif.Fetch.Retry
import Verif.Fetch.Sniff
import Verif.TestCache.Props
import Verif.TestExit.Props
import Verif.TestExit.Details
import Verif.TermFit.Props
import Verif.TermFit.Color
import Verif.TestOut.Props
import Verif.TestIter.Props
import Verif.TestSel.Props
import Verif.TestExit.Snapshot
import Verif.SnapCache.Props
