import Verif.Sort.Props
import Verif.Search.Props
import Verif.Reorder.Props
import Verif.StableSort.Props
import Verif.SetOps.Props
import Verif.Searchers.Props
import Verif.Perm.Props
import Verif.Charconv.ToChars
import Verif.Chrono.Props
import Verif.Chrono.Last
import Verif.Duration.Props
import Verif.Conc.SharedPtrProps
import Verif.Conc.SemaphoreProps
import Verif.Conc.LatchProps
import Verif.Conc.BarrierProps
import Verif.Conc.StopTokenProps
import Verif.Deque.Props
import Verif.RBTree.Props
import Verif.DList.Props
import Verif.Random.Props
import Verif.Random.SampleProps
import Verif.Mdspan.Props
import Verif.Bits.Props
import Verif.Bitset.Props
import Verif.Num.Props
import Verif.Num.Ratio
import Verif.Pmr.Props
import Verif.Int128.Builtin
import Verif.BigInt.Props
import Verif.FloatConv.Props
import Verif.Par.Examples
import Verif.Path.Props
import Verif.Path.IterProps
import Verif.Utf.Oneshot
import Verif.Hash.Props
import Verif.Vec.Props
import Verif.Str.Props
import Verif.Variant.Props
import Verif.Par.SortLock
import Verif.AWait.Live
import Verif.PoolRes.Examples
import Verif.AtomicSp.Examples
import Verif.Future.Examples
import Verif.Locks.Examples
import Verif.VAlg.Props
import Verif.VWrite.Props
import Verif.Engines.Props
import Verif.Adaptors.Props
import Verif.VBool.Props
import Verif.Utc.Props
import Verif.Utc.Table
import Verif.Hms.Props
