import Verif.Props.Hash
import Verif.Props.Kv
import Verif.Props.Lists
import Verif.Props.Queues
import Verif.Props.Isolation
import Verif.Props.Iter
import Verif.Props.Tree
import Verif.Props.Crash
import Verif.Props.CrashMore
import Verif.Props.Conc
import Verif.Props.Fine
import Verif.Props.Durable
import Verif.Props.ConcRead
import Verif.Props.Small
import Verif.Props.Typed
import Verif.Props.Names
import Verif.Props.Create
import Verif.Props.Flush
import Verif.Props.Agg
import Verif.Props.MergeRace
import Verif.Props.Panic
import Verif.Props.ConcPanic
import Verif.Props.Parts
import Verif.Props.Origin
import Verif.Props.Stay
import Verif.Props.StayList
import Verif.Props.IterConc
import Verif.Props.ClearConc
import Verif.Props.Quota
import Verif.Props.Errors
import Verif.Props.ErrorDir
import Verif.Props.CrashStats
import Verif.Props.Foreign
import Verif.Props.BgError
import Verif.Props.MergeError
import Verif.Props.Retune
import Verif.Props.Cell
import Verif.Model.Dir
import Verif.Props.Counters
import Verif.Props.Pool
import Verif.Props.Advice
import Verif.Props.Single
import Verif.Props.Cookie
