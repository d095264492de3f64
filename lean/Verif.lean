import Verif.Lock.Props
import Verif.Base.Props
import Verif.MemPool.Props
import Verif.Sobj.Props
import Verif.Space.Props
import Verif.Space.Ctx
import Verif.Space.Alloc
import Verif.UtList.Props
import Verif.Team.Props
import Verif.P2p.Props
import Verif.Amo.Props
import Verif.Amo.Exact
import Verif.Env.Props
import Verif.Env.SizeProps
import Verif.Rma.DtypeProps
import Verif.Rma.Props
import Verif.Am.Props
import Verif.Am.Inst
import Verif.Order.Props
import Verif.Order.Threads
import Verif.Coll.CacheThreads
import Verif.Coll.ReduceProps
import Verif.Coll.Exact
import Verif.Symm.Props
import Verif.Setup.Props
import Verif.Setup.Handshake
import Verif.Heap.Props
import Verif.Heap.Barrier
import Verif.Api.Props
import Verif.Vis.Props
import Verif.Vis.Link
import Verif.Vis.Ex
import Verif.Vis.LinEx
import Verif.Dl.Ex
import Verif.Stub.Props
import Verif.Api.ReduceProps
import Verif.Tag.Ex
import Verif.Api.CollProps
import Verif.Lnk.Ex
import Verif.Serve.Ex
import Verif.Cs.Ex
import Verif.Setup.UseProps
import Verif.Api.C11Props
import Verif.Api.AmoProps
import Verif.Api.RmaRtProps
import Verif.Lock.WordsProps
import Verif.Lock.WordsViol
import Verif.Lock.MultiProps
import Verif.Api.P2pRtProps
import Verif.Team.LifeProps
import Verif.Flow.Ex
import Verif.Vis.Progress
import Verif.Flow.BlocksEx
import Verif.Crit.Ex
import Verif.Flow.AmoEx
import Verif.Mm.Ex
import Verif.Joint.Ex
import Verif.Env.InitProps
import Verif.Serve.Fair
import Verif.Serve.Bulk
import Verif.Serve.FairEx
import Verif.Vis.Fair
import Verif.Vis.FairProps
import Verif.Gpu.Model
import Verif.Gpu.Props
import Verif.Gpu.Ex
import Verif.Bsp.Model
import Verif.Bsp.Lemmas
import Verif.Bsp.Steps
import Verif.Bsp.Inv
import Verif.Bsp.Props
import Verif.Bsp.Ex
import Verif.Bsp.Fair
import Verif.Bsp.FairEx
import Verif.Bsp.Named
import Verif.Bsp.NamedEx
import Verif.Bsp.Exists
import Verif.Bsp.Count
import Verif.Coll.ExactCollect
import Verif.Sig.Model
import Verif.Sig.Inv
import Verif.Sig.Props
import Verif.Sig.Fair
import Verif.Sig.Named
import Verif.Sig.Exists
import Verif.Sig.Chain
import Verif.Crit.Prog
import Verif.Crit.Fair
import Verif.Crit.Counter
import Verif.Crit.CounterInv
import Verif.Crit.Exists
import Verif.Crit.CounterJob
import Verif.Crit.Seq
import Verif.Crit.SeqProps
import Verif.Crit.SeqEx
import Verif.Mix.Prog
import Verif.Mix.Inv
import Verif.Mix.Seq
import Verif.Mix.Props
import Verif.Mix.Exists
import Verif.Mix.Ex
import Verif.Gpu.Ze
import Verif.Mix.Fair
import Verif.Mix.FairExists
import Verif.Mix.Tally
import Verif.Mix.Settle
import Verif.Mix.Settled
import Verif.Mix.Announce
import Verif.Coll.ExactStrided
import Verif.Rma.Exact
import Verif.Bsp.PutTest
import Verif.Flow.FetchAdd
import Verif.Bsp.StridedTest
import Verif.Flow.Register
import Verif.Flow.RegisterLive
import Verif.Flow.WaitLive
