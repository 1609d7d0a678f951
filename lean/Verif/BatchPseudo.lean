import Verif.BatchFdd
import Verif.Pseudo

/-!
# Pseudo-observations for batches

The model of the constructors of `PseudoObservations`, `PseudoObservationsFITC` and `PseudoObservationsDTC`, of what they compute
(`stheno/model/observations.py:181-253, 279-336, 356-404`), and of `Measure.logpdf` for pseudo-observations (`stheno/model/measure.py:487-489`), where inputs,
noises and values are arrays of any rank. The functions are those of `Verif/Pseudo.lean` and `Verif/Cache.lean`.

Simplification: what the objects keep is not modelled for batches, so everything is computed when it is asked for.
-/

namespace Stheno

namespace Bat
open Ten

/-- The first argument: an FDD, or a tuple of FDDs. -/
inductive BUArg where
  | one (f : BFdd)
  | many (fs : List BFdd)

/-- The FDD of inducing points (`stheno/model/observations.py:190-192`). -/
noncomputable def mkU (w : BWorld) (ord : List MId) : BUArg → Option (List BOp × BFdd)
  | .one f => some ([], f)
  | .many fs => do
    let (o, f) ← combine w ord fs
    pure ([o], f)

/-- `PseudoObservations(us, *args)` (`stheno/model/observations.py:181-192`): the operations on the graph, and the observations. `diag` is whether the noise of the data
is of class `Diagonal`. -/
noncomputable def mkPseudo (w : BWorld) (ord ord' : List MId) (μ : Method) (diag : Bool) (us : BUArg) (as : List BArg) : Option (List BOp × BObs) := do
  let (os, u) ← mkU w ord us
  let (os', o) ← mkObs (runOps os w) ord' as
  match o with
  | .exact p x noise y => pure (os ++ os', .pseudo u.p p ⟨μ, u.x, u.noise, x, noise, diag, y⟩)
  | .pseudo _ _ _ => none

/-- `_compute` (`stheno/model/observations.py:279-336`) starts with the arrays `D` and stores `R`, for observations of the process `p` through inducing points of the
process `pu`. The Cholesky factorisation (line 300) raises if a matrix of the batch is not positive definite; the entries of `K_n` must be positive (the code would
return infinities or NaNs); numbers of rows and columns must agree (the code might broadcast). DTC does not need `K_x_diag`. -/
structure ComputeCall (w : BWorld) (pu p : PId) (o : BPseudo) (m : MId) (D : BData) (R : BOut) : Prop where
  Kzx : KernelCall w m pu p o.z o.x D.Kzx
  Kz : ∃ A, KernelCall w m pu pu o.z o.z A ∧ bin (· + ·) A o.noiseZ = some D.Kz
  diag : o.isDiagonal = true
  kx : o.method ≠ .dtc → ElwiseCall w m p p o.x o.x D.kx
  dtc : o.method = .dtc → D.kx = ⟨D.kx.shape.take 2, fun _ => 0⟩
  noise : o.noiseX.diag = some D.noise
  mx : MeanCall w m p o.x D.mx
  mz : MeanCall w m pu o.z D.mz
  y : D.y = o.y
  sizes : ∃ n k bz bx bn, D.Kz.shape = n :: n :: bz ∧ D.Kzx.shape = k :: n :: bx ∧ D.kx.shape.take 2 = [1, k] ∧ D.noise.shape = k :: bn ∧ D.mx.shape.take 2 = [1, k] ∧
    D.mz.shape.take 2 = [1, n] ∧ D.y.uprank.shape.take 2 = [1, k] ∧ ∀ d, In d bz → (D.Kz.mat n n d).PosDef
  pos : ∃ L W Kn t, (D.Kz.onMat fun _ A => chol A) = some L ∧ solve L D.Kzx = some W ∧ D.noiseTrace o.method W = some (Kn, t) ∧ ∀ i, In i Kn.shape → 0 < Kn.e i
  ret : D.compute o.method = some R

/-- `measure.logpdf(obs)` for pseudo-observations returns `t` (`stheno/model/measure.py:487-489`). -/
def PseudoLogpdf (w : BWorld) (m : MId) : BObs → Ten ℝ → Prop
  | .pseudo pu p o, t => ∃ D R, ComputeCall w pu p o m D R ∧ t = R.elbo
  | .exact _ _ _ _, _ => False

end Bat

end Stheno
