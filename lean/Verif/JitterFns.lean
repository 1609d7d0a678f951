import Verif.Jitter
import Verif.MeasureFns

/-!
# Densities and samples with jitter

The package `matrix` adds `B.epsilon` to the diagonal of a dense matrix before it takes its Cholesky factor. `Normal.logpdf` and `Normal.sample`
take the Cholesky factor of the variance.
-/

namespace Stheno

open Matrix

namespace Normal
variable {n k : ℕ}

/-- The variance with jitter. -/
def jitter (ε : ℝ) (g : Normal n) : Normal n := ⟨g.mean, g.var + ε • 1⟩

/-- `Normal.logpdf` without missing data (`stheno/random.py:272-280`) when the jitter is `ε`: `B.logdet` and `B.iqf_diag` use the Cholesky factor. -/
noncomputable def logpdfFullJ (ε : ℝ) (g : Normal n) (x : Fin n → ℝ) : ℝ :=
  -(Real.log (g.var + ε • 1).det + n * Real.log (2 * Real.pi) + (x - g.mean) ⬝ᵥ ((g.var + ε • 1)⁻¹ *ᵥ (x - g.mean))) / 2

/-- `Normal.logpdf` (`stheno/random.py:248-280`) when the jitter is `ε`. NaN is `none`. The jitter is added to the variance of the available data. -/
noncomputable def logpdfJ (ε : ℝ) (g : Normal n) (x : Fin n → Option ℝ) : ℝ :=
  if ∀ i, (x i).isSome then g.logpdfFullJ ε fun i => (x i).getD 0
  else
    let is := (List.finRange n).filter fun i => (x i).isSome
    (g.sub is).logpdfFullJ ε fun i => (x (is.get i)).getD 0

/-- `Normal.sample` (`stheno/random.py:331-355`) when the jitter is `ε`: `B.sample` multiplies standard normal numbers by the Cholesky factor. -/
noncomputable def sampleJ (ε : ℝ) (g : Normal n) (meanIsZero : Bool) (noise : Option ℝ) (zs : Fin k → Fin n → ℝ) (s : Fin k) : Fin n → ℝ :=
  g.sample (fun V => chol (V + ε • 1)) meanIsZero noise zs s

end Normal

/-- The mean `v` and the variance `V` of an FDD (`stheno/model/fdd.py:65-83`) when the jitter is `ε`. -/
def FddNormalJ (ε : ℝ) (w : World) (f : Fdd) (v : List ℝ) (V : Mat) : Prop :=
  ∃ m K, gpMeasure w f.p = some m ∧ MeanCallJ ε w m f.p f.x v ∧ KernelCallJ ε w m f.p f.p f.x f.x K ∧ K.add f.noise = some V

/-- `fdd.logpdf(y)` (`stheno/random.py:248-280`) returns `r` when the jitter is `ε`. -/
structure FddLogpdfJ (ε : ℝ) (w : World) (f : Fdd) (y : Vals) (r : ℝ) : Prop where
  ret : ∃ v V, FddNormalJ ε w f v V ∧ V.c = V.r ∧ v.length = V.r ∧ y.length = V.r ∧
    (((asNormal (.col v) V).sub ((List.finRange V.r).filter fun i => (y.getD i none).isSome)).var + ε • 1).PosDef ∧
    r = (asNormal (.col v) V).logpdfJ ε fun i => y.getD i none

end Stheno
