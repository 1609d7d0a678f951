import Verif.Ops
import Verif.Plain

/-!
# Arguments of `GP`

What `GP(mean, kernel, measure=.., name=..)` and `GP(kernel, measure=.., name=..)` make of numbers and functions
(`stheno/model/gp.py:70-99`), and which operation of `Verif/Ops.lean` they run. The measure and the default measure are
part of that operation.

Simplification: a number times `OneMean()` or `OneKernel()` is zero if the number is zero and otherwise a scaled function,
and a function times one of them is a tensor product (contract of `mlkernels` and `algebra`); multiplication by one is
left in place.
-/

namespace Stheno

/-- The argument `mean`: a number, a Python function, or a mean (line 82). -/
inductive MeanArg where
  | num (c : ℝ)
  | fn (f : Pt → ℝ)
  | mean (a : MExpr)

/-- The argument `kernel` (line 86). -/
inductive KernelArg where
  | num (c : ℝ)
  | fn (f : Pt → ℝ)
  | kernel (k : KExpr)

/-- `OneMean()` -/
def oneMean : MExpr := .fn (.const 1)

/-- `OneKernel()` -/
def oneKernel : KExpr := .tprod (.const 1) (.const 1)

open Classical in
/-- `mean * OneMean()` for numbers and functions (lines 81-83). -/
noncomputable def MeanArg.resolve : MeanArg → MExpr
  | .num c => if c = 0 then .zero else .scale c oneMean
  | .fn f => .mul (.fn (.user f)) oneMean
  | .mean a => a

open Classical in
/-- `kernel * OneKernel()` for numbers and functions (lines 85-87). -/
noncomputable def KernelArg.resolve : KernelArg → KExpr
  | .num c => if c = 0 then .zero else .scale c oneKernel
  | .fn f => .mul (.tprod (.user f) (.user f)) oneKernel
  | .kernel k => k

/-- `GP(mean, kernel, measure=.., name=..)` (lines 70-95). -/
noncomputable def construct (mean : MeanArg) (kernel : KernelArg) (measure : Option MId) (name : Option String) : Op :=
  .gp mean.resolve kernel.resolve measure name

/-- `GP(kernel, measure=.., name=..)` (lines 97-99). -/
noncomputable def constructK (kernel : KernelArg) (measure : Option MId) (name : Option String) : Op :=
  construct (.mean .zero) kernel measure name

end Stheno
