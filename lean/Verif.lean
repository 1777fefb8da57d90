import Verif.Search.Theorems
import Verif.Provenance.Theorems
import Verif.Merge.Theorems
import Verif.Pack.Theorems
import Verif.Iter.Theorems
import Verif.Names.Theorems
import Verif.Scoped.Theorems
import Verif.Types.Theorems
import Verif.Refs.Theorems
import Verif.Assembly.Theorems
import Verif.Assembly.InsertTheorems
import Verif.Workspace.Theorems
import Verif.IR.Theorems
import Verif.IR.StmtTheorems
import Verif.CPrint.Theorems
import Verif.IndexText.Theorems
import Verif.Schedule.Theorems
import Verif.FileIO.Theorems
import Verif.LoopOrder.Theorems
import Verif.Algebra.Theorems
import Verif.Intrinsic.Theorems
import Verif.Lazy.Theorems
import Verif.Concrete.Einsum.Theorems
import Verif.Concrete.Reorder.Theorems
import Verif.Concrete.Precompute.Theorems
import Verif.Kernel.Theorems
import Verif.Concrete.Args.Theorems
import Verif.Concrete.Promote.Theorems
import Verif.Parallel.Theorems
import Verif.Window.Theorems
import Verif.Format.Theorems
import Verif.Tensor.Theorems
import Verif.Fused.Theorems
import Verif.Fused.Packed
import Verif.EndToEnd.Theorems
import Verif.EndToEnd.Dense
import Verif.Gallop.Theorems
import Verif.Gallop.Value
import Verif.IndexSet.Theorems
import Verif.Coo.Theorems
import Verif.Omit.Theorems
import Verif.Init.Theorems
import Verif.Reduce.Theorems
import Verif.Query.Theorems
import Verif.Spmm.Theorems
import Verif.Order.Theorems
import Verif.Strip.Theorems
import Verif.Einsum.Theorems
import Verif.Width.Theorems
import Verif.CStmt.Theorems
import Verif.Memory.Theorems
import Verif.Typed.Theorems
import Verif.Algebra.FillTheorems
import Verif.Abi.Theorems
import Verif.Foreign.Theorems
import Verif.Replace.Theorems
import Verif.Dims.Theorems
import Verif.Cuda.Theorems
import Verif.GpuSearch.Theorems
import Verif.GpuAcc.Theorems
import Verif.Recover.Theorems
import Verif.Notation.Theorems
import Verif.Unroll.Theorems
import Verif.Numpy.Theorems
import Verif.PyArray.Theorems
import Verif.Rewrite.Theorems
import Verif.Directive.Theorems
import Verif.Options.Theorems
import Verif.Generate.Grids
import Verif.Generate.Theorems
import Verif.Library.Theorems
import Verif.Target.Theorems
import Verif.Forest.Theorems
import Verif.Timing.Theorems
import Verif.Paths.Theorems
import Verif.Report.Theorems
import Verif.PyHash.Theorems
import Verif.PyExport.Theorems
