import Verif.Heap.Theorems
import Verif.Objects.Theorems
import Verif.Env.Theorems
import Verif.Jobs.Theorems
import Verif.Budget.Theorems
import Verif.Promises.Theorems
import Verif.Values.Theorems
import Verif.Modules.Theorems
import Verif.Loader.Theorems
import Verif.Graph.Theorems
import Verif.Dom.Theorems
import Verif.Harness.Theorems
import Verif.Names.Theorems
import Verif.Escape.Theorems
import Verif.Flow.Theorems
import Verif.Opt.Theorems
import Verif.Rename.Theorems
import Verif.Eval.Theorems
import Verif.Eval.TextTheorems
import Verif.Types.InternTheorems
import Verif.Types.Theorems
import Verif.Types.Shapes
import Verif.Types.Snapshot
import Verif.Emit.Theorems
import Verif.Emit.StmtTheorems
import Verif.Lex.Theorems
import Verif.Ssa.Theorems
import Verif.Ssa.PassTheorems
import Verif.Lin.Theorems
import Verif.Lower.Theorems
import Verif.Prune.Theorems
import Verif.Pipe.Theorems
import Verif.Exec.Theorems
import Verif.Expr.Theorems
import Verif.Fold.Theorems
import Verif.Free.Theorems
import Verif.Relate.LawTheorems
import Verif.Relate.ValueTheorems
import Verif.Spans.Theorems
import Verif.Narrow.Theorems
import Verif.Stmts.Theorems
import Verif.Structure.Theorems
import Verif.Numeric.Theorems
import Verif.Bind.Theorems
import Verif.WebIdl.Theorems
import Verif.PropKey.Theorems
import Verif.Paths.Theorems
import Verif.NumKey.Theorems
import Verif.Loops.Theorems
import Verif.Widen.Objects
import Verif.Types.RoundTrip
import Verif.Subst.Returns
import Verif.Subst.Cache
