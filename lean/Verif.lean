import Verif.Common
import Verif.Bitset.Props
import Verif.Graph.Props
import Verif.Graph.AGaTProps
import Verif.PlanEnum.Props
import Verif.PlanEnum.DPccpProps
import Verif.CNF.Props
import Verif.RWLock.LiveProps
import Verif.HashMap.Props
import Verif.XorList.Props
import Verif.ListAlloc.Props
import Verif.LinAlloc.Props
import Verif.Fn.LikeProps
import Verif.Fn.EscapeProps
import Verif.Fn.IntsProps
import Verif.Index.Props
import Verif.Sched.Props
import Verif.Layout.Props
import Verif.StackMachine.Props
import Verif.Interp.Props
import Verif.Lexer.Props
import Verif.Schema.Props
import Verif.MVCC.Props
import Verif.DSV.Props
import Verif.Parser.Props
import Verif.Pool.Props
import Verif.HSearch.Props
import Verif.Greedy.Props
import Verif.WasmSort.Props
import Verif.WasmStr.Props
import Verif.WasmHT.Props
import Verif.WasmHash.Props
import Verif.WasmExpr.Props
import Verif.Insert.Props
import Verif.IndexScan.Props
import Verif.QGraph.Props
import Verif.Deliver.Props
import Verif.WasmAgg.Props
import Verif.Tail.Props
import Verif.WasmJoin.Props
import Verif.Minimize.Props
import Verif.Constraints.Props
import Verif.PhysOpt.Props
import Verif.SortCond.Props
import Verif.Sema.Props
import Verif.WasmLayout.SimdProps
import Verif.WasmBuffer.Props
import Verif.PartialPlan.Props
import Verif.NestedQ.Props
import Verif.DDL.Props
import Verif.CardEst.Props
import Verif.SumProd.Props
import Verif.Grid.Props
import Verif.StoreManip.Props
import Verif.QSort.Props
import Verif.Unshare.Props
import Verif.G2S.Props
import Verif.Args.Props
import Verif.Html.Props
import Verif.Calendar.Props
