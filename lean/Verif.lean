import Verif.Base
import Verif.Arith.Props
import Verif.Arith.Fb
import Verif.Table.Props
import Verif.RArray.Props
import Verif.Float.Props
import Verif.For.Props
import Verif.For.Exp1
import Verif.StrTab.Props
import Verif.Stack.Props
import Verif.StrCmp.Props
import Verif.Concat.Props
import Verif.StrLib.Props
import Verif.TabLib.Props
import Verif.Sort.Props
import Verif.Num.Props
import Verif.Utf8.Lib
import Verif.Utf8.Offset
import Verif.Code.JumpProps
import Verif.Ref.Props
import Verif.Buf.Props
import Verif.ChunkId.Props
import Verif.Call.Props
import Verif.Random.Props
import Verif.Random.Gen
import Verif.Bit32.Props
import Verif.BitSet.Props
import Verif.Graph.Props
import Verif.Graph.Classify
import Verif.Dom.Props
import Verif.Dataflow.Props
import Verif.Pack.Props
import Verif.Lex.Safe
import Verif.Lex.Strings
import Verif.Lex.Long
import Verif.Pat.Model
import Verif.Pat.Spec
import Verif.Pat.Class
import Verif.Pat.Exact
import Verif.Pat.Main
import Verif.Pat.Match
import Verif.Pat.Meaning
import Verif.Pat.Safe
import Verif.Pat.Find
import Verif.Pat.Subst
import Verif.Pat.Props
import Verif.TmCache.Props
import Verif.StackMem.Props
import Verif.Typed.Props
import Verif.Upval.Props
import Verif.Defer.Props
import Verif.Dump.Model
import Verif.Dump.Lemmas
import Verif.Dump.RoundTrip
import Verif.Dump.Stream
import Verif.Dump.Props
import Verif.GC.Model
import Verif.GC.Spec
import Verif.GC.Mark
import Verif.GC.Inv
import Verif.GC.Trav
import Verif.GC.Atomic
import Verif.GC.Clear
import Verif.GC.AtomicEnd
import Verif.GC.Core
import Verif.GC.Sweep
import Verif.GC.Ops
import Verif.GC.Exec
import Verif.GC.Run
import Verif.GC.Frame
import Verif.GC.Strong
import Verif.GC.Garbage
import Verif.GC.GarbageOps
import Verif.GC.GarbageRun
import Verif.GC.Props
import Verif.HashTab.Model
import Verif.HashTab.Sizes
import Verif.HashTab.Lemmas
import Verif.HashTab.Inv
import Verif.HashTab.Props
import Verif.HashTab.Clients
import Verif.HashTab.ClientProps
import Verif.Fold.Model
import Verif.Fold.Props
import Verif.ExpCode.Props
import Verif.Parse.Props
import Verif.Scope.Props
import Verif.Stat.Props
import Verif.Stat.GotoProps
import Verif.Assign.Props
import Verif.PtrList.Props
import Verif.Cons.Props
import Verif.Coro.Props
import Verif.Meta.Props
import Verif.FinishOp.Props
import Verif.Lin.Props
import Verif.LinStmt.Props
import Verif.BitOp.Props
import Verif.BaseLib.Props
import Verif.MemBuf.Props
import Verif.Zio.Props
import Verif.MathLib.Props
import Verif.Mem.Props
import Verif.Unused.Model
import Verif.Unused.Props
import Verif.CArray.Model
import Verif.CArray.Props
import Verif.Cfg.Model
import Verif.Cfg.Props
import Verif.Path.Model
import Verif.Path.Props
import Verif.Trace.Model
import Verif.Trace.Props
import Verif.IoRead.Model
import Verif.IoRead.Props
import Verif.IoNum.Model
import Verif.IoNum.Props
import Verif.IoMode.Model
import Verif.IoMode.Props
