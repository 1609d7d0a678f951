import Mathlib.Analysis.Matrix.PosDef
import Mathlib.Analysis.SpecialFunctions.Log.Basic
import Mathlib.Analysis.SpecialFunctions.Trigonometric.Basic
import Verif.Syntax

/-!
# Matrix computations of the observation classes (`stheno/model/observations.py`)

`_compute` as written, over the reals. The functions `cholesky`, `solve`, `iqf`, `logdet`, `ratio` of the
`lab` package are replaced by what they compute: `solve(L, B) = L⁻¹ B`, `iqf(K, B, C) = Bᵀ K⁻¹ C`,
`ratio(A, B) = tr(B⁻¹ A)`.
-/

namespace Stheno

open Matrix

/-- Contract of `B.cholesky`: a lower-triangular factor with a positive diagonal. The jitter
`B.epsilon` that is added to the diagonal is not modelled. -/
structure IsChol {n : ℕ} (L K : Matrix (Fin n) (Fin n) ℝ) : Prop where
  lower : ∀ i j, i < j → L i j = 0
  pos : ∀ i, 0 < L i i
  mul : L * Lᵀ = K

open Classical in
/-- `B.cholesky(K)` (called at `stheno/model/observations.py:300`). -/
noncomputable def chol {n : ℕ} (K : Matrix (Fin n) (Fin n) ℝ) : Matrix (Fin n) (Fin n) ℝ :=
  if h : ∃ L, IsChol L K then h.choose else 0

section Compute
variable {n k : ℕ} (μ : Method) (Kz : Matrix (Fin n) (Fin n) ℝ) (Kzx : Matrix (Fin n) (Fin k) ℝ)
  (kx noise ybar : Fin k → ℝ)

/-- `iLz_Kzx` (`stheno/model/observations.py:301`). -/
noncomputable def iLzKzx : Matrix (Fin n) (Fin k) ℝ := (chol Kz)⁻¹ * Kzx

/-- `Q_x_diag` (`stheno/model/observations.py:305`). -/
noncomputable def qxDiag (j : Fin k) : ℝ := ∑ i, iLzKzx Kz Kzx i j * iLzKzx Kz Kzx i j

/-- The diagonal of `diag_correction` (`stheno/model/observations.py:306`). -/
noncomputable def diagCorrection (j : Fin k) : ℝ := kx j - qxDiag Kz Kzx j

/-- The diagonal of `K_n` after lines 308-316 of `stheno/model/observations.py`. -/
noncomputable def knDiag (j : Fin k) : ℝ :=
  match μ with
  | .vfe => noise j + 0
  | .fitc => noise j + diagCorrection Kz Kzx kx j
  | .dtc => noise j + 0

/-- `trace_part` (`stheno/model/observations.py:310, 313, 316`). -/
noncomputable def tracePart : ℝ :=
  match μ with
  | .vfe => ∑ j, diagCorrection Kz Kzx kx j / knDiag .vfe Kz Kzx kx noise j
  | .fitc => 0
  | .dtc => 0

/-- `K_n` as a matrix. -/
noncomputable def knMat : Matrix (Fin k) (Fin k) ℝ := diagonal (knDiag μ Kz Kzx kx noise)

/-- The local variable `A` of line 322 of `stheno/model/observations.py`. -/
noncomputable def innerA : Matrix (Fin n) (Fin n) ℝ :=
  1 + ((iLzKzx Kz Kzx)ᵀ)ᵀ * (knMat μ Kz Kzx kx noise)⁻¹ * (iLzKzx Kz Kzx)ᵀ

/-- `self._A` (`stheno/model/observations.py:323`). -/
noncomputable def subspaceA : Matrix (Fin n) (Fin n) ℝ :=
  chol Kz * innerA μ Kz Kzx kx noise * (chol Kz)ᵀ

/-- `prod_y_bar` (`stheno/model/observations.py:327`). -/
noncomputable def prodYBar : Fin n → ℝ :=
  (((iLzKzx Kz Kzx)ᵀ)ᵀ * (knMat μ Kz Kzx kx noise)⁻¹) *ᵥ ybar

/-- `mu - means[p_z](z)` (`stheno/model/observations.py:329`). -/
noncomputable def muShift : Fin n → ℝ :=
  (((chol Kz)ᵀ)ᵀ * (innerA μ Kz Kzx kx noise)⁻¹) *ᵥ prodYBar μ Kz Kzx kx noise ybar

/-- `self._elbo` (`stheno/model/observations.py:333-336`). -/
noncomputable def elboOf : ℝ :=
  -(1 / 2) * ((Real.log (((2 * Real.pi) • knMat μ Kz Kzx kx noise).det)
      + Real.log (innerA μ Kz Kzx kx noise).det)
    + (ybar ⬝ᵥ ((knMat μ Kz Kzx kx noise)⁻¹ *ᵥ ybar)
      - prodYBar μ Kz Kzx kx noise ybar ⬝ᵥ
          ((innerA μ Kz Kzx kx noise)⁻¹ *ᵥ prodYBar μ Kz Kzx kx noise ybar))
    + tracePart μ Kz Kzx kx noise)

end Compute

end Stheno
