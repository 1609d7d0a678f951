import Mathlib.Algebra.Order.Star.Real
import Mathlib.Analysis.Matrix.LDL
import Mathlib.LinearAlgebra.Matrix.Block
import Verif.Numerics

/-!
# What the matrix computations of pseudo-observations amount to

The Cholesky factor exists, and the quantities computed from it are the textbook formulas for sparse
approximations, which mention only inverses.
-/

namespace Stheno

open Matrix

section Chol
variable {n : ℕ} {K L : Matrix (Fin n) (Fin n) ℝ}

theorem IsChol.det_ne (h : IsChol L K) : L.det ≠ 0 := by
  have hl : L.IsLowerTriangular := fun i j hij => h.lower i j hij
  rw [det_of_isLowerTriangular L hl]
  exact Finset.prod_ne_zero_iff.2 fun i _ => (h.pos i).ne'

theorem exists_chol (h : K.PosDef) : ∃ L, IsChol L K := by
  classical
  -- a triangular factor
  let P := LDL.lower h
  let D := LDL.diagEntries h
  have hP : P * diagonal D * Pᵀ = K := by
    have := LDL.lower_conj_diag h
    rwa [conjTranspose_eq_transpose_of_trivial] at this
  have : Invertible (LDL.lowerInv h) := LDL.invertibleLowerInv h
  have hPl : ∀ i j, i < j → P i j = 0 := by
    have h1 : BlockTriangular (LDL.lowerInv h) OrderDual.toDual := fun i j hij =>
      LDL.lowerInv_triangular h hij
    have h2 := blockTriangular_inv_of_blockTriangular h1
    exact fun i j hij => h2 hij
  have hPdet : P.det ≠ 0 := by
    have : IsUnit P.det := by
      rw [← isUnit_iff_isUnit_det]
      exact (Matrix.isUnit_nonsing_inv_iff).2 (isUnit_of_invertible _)
    exact this.ne_zero
  have hD : ∀ i, 0 < D i := by
    intro i
    have hd : (diagonal D).PosDef := by
      have : diagonal D = LDL.lowerInv h * K * (LDL.lowerInv h)ᴴ := LDL.diag_eq_lowerInv_conj h
      rw [this]
      refine h.mul_mul_conjTranspose_same ?_
      have hu : IsUnit (LDL.lowerInv h) := isUnit_of_invertible _
      exact Matrix.vecMul_injective_iff_isUnit.2 hu
    have := posDef_diagonal_iff.1 hd i
    exact this
  have hPlow : P.IsLowerTriangular := fun i j hij => hPl i j hij
  have hPi : ∀ i, P i i ≠ 0 := by
    intro i
    rw [det_of_isLowerTriangular P hPlow] at hPdet
    exact Finset.prod_ne_zero_iff.1 hPdet i (Finset.mem_univ i)
  -- square roots and signs
  let s : Fin n → ℝ := fun i => SignType.sign (P i i) * Real.sqrt (D i)
  have hs : ∀ i, s i * s i = D i := by
    intro i
    have h1 : ((SignType.sign (P i i) : SignType) : ℝ) * (SignType.sign (P i i) : SignType) = 1 := by
      rcases lt_or_gt_of_ne (hPi i) with h' | h'
      · simp [sign_neg h']
      · simp [sign_pos h']
    calc s i * s i = (((SignType.sign (P i i) : SignType) : ℝ) * (SignType.sign (P i i) : SignType)) *
        (Real.sqrt (D i) * Real.sqrt (D i)) := by simp only [s]; ring
      _ = D i := by rw [h1, one_mul, Real.mul_self_sqrt (hD i).le]
  refine ⟨P * diagonal s, fun i j hij => ?_, fun i => ?_, ?_⟩
  · rw [mul_diagonal, hPl i j hij, zero_mul]
  · rw [mul_diagonal]
    have h2 : 0 < P i i * ((SignType.sign (P i i) : SignType) : ℝ) := by
      rw [self_mul_sign]
      exact abs_pos.2 (hPi i)
    have : P i i * s i = (P i i * ((SignType.sign (P i i) : SignType) : ℝ)) * Real.sqrt (D i) := by
      simp only [s]; ring
    rw [this]
    exact mul_pos h2 (Real.sqrt_pos.2 (hD i))
  · rw [transpose_mul, diagonal_transpose, Matrix.mul_assoc, ← Matrix.mul_assoc (diagonal s),
      diagonal_mul_diagonal]
    simp only [hs]
    rw [← Matrix.mul_assoc]
    exact hP

theorem chol_spec (h : K.PosDef) : IsChol (chol K) K := by
  unfold chol
  rw [dif_pos (exists_chol h)]
  exact (exists_chol h).choose_spec

theorem chol_unit (h : K.PosDef) : IsUnit (chol K).det := isUnit_iff_ne_zero.2 (chol_spec h).det_ne

theorem chol_inv (h : K.PosDef) : ((chol K)⁻¹)ᵀ * (chol K)⁻¹ = K⁻¹ := by
  conv_rhs => rw [← (chol_spec h).mul]
  rw [Matrix.mul_inv_rev, transpose_nonsing_inv]

end Chol

/-! ## The textbook formulas -/

section Sparse
variable {n k : ℕ} (μ : Method) (Kz : Matrix (Fin n) (Fin n) ℝ) (Kzx : Matrix (Fin n) (Fin k) ℝ)
  (kx noise ybar : Fin k → ℝ)

/-- The noise variances of the approximate model: FITC adds the variance that is lost by the
approximation. -/
noncomputable def sparseNoise (j : Fin k) : ℝ :=
  match μ with
  | .fitc => noise j + (kx j - (Kzxᵀ * Kz⁻¹ * Kzx) j j)
  | _ => noise j

/-- `K_z + K_zx N⁻¹ K_xz` -/
noncomputable def sparseA : Matrix (Fin n) (Fin n) ℝ :=
  Kz + Kzx * (diagonal (sparseNoise μ Kz Kzx kx noise))⁻¹ * Kzxᵀ

/-- The weights of the approximate posterior mean: `A⁻¹ K_zx N⁻¹ (y - m)`. -/
noncomputable def sparseWeights : Fin n → ℝ :=
  (sparseA μ Kz Kzx kx noise)⁻¹ *ᵥ ((Kzx * (diagonal (sparseNoise μ Kz Kzx kx noise))⁻¹) *ᵥ ybar)

variable {Kz}

theorem iLzKzx_mul (h : Kz.PosDef) (Kzx : Matrix (Fin n) (Fin k) ℝ) :
    (iLzKzx Kz Kzx)ᵀ * iLzKzx Kz Kzx = Kzxᵀ * Kz⁻¹ * Kzx := by
  unfold iLzKzx
  rw [transpose_mul, Matrix.mul_assoc, ← Matrix.mul_assoc (((chol Kz)⁻¹)ᵀ), chol_inv h, Matrix.mul_assoc]

theorem qxDiag_eq (h : Kz.PosDef) (Kzx : Matrix (Fin n) (Fin k) ℝ) (j : Fin k) :
    qxDiag Kz Kzx j = (Kzxᵀ * Kz⁻¹ * Kzx) j j := by
  rw [← iLzKzx_mul h]
  rfl

theorem knDiag_eq (h : Kz.PosDef) : knDiag μ Kz Kzx kx noise = sparseNoise μ Kz Kzx kx noise := by
  funext j
  cases μ <;> simp [knDiag, sparseNoise, diagCorrection, qxDiag_eq h]

theorem chol_mul_iLzKzx (h : Kz.PosDef) (Kzx : Matrix (Fin n) (Fin k) ℝ) : chol Kz * iLzKzx Kz Kzx = Kzx := by
  unfold iLzKzx
  rw [← Matrix.mul_assoc, mul_nonsing_inv _ (chol_unit h), Matrix.one_mul]

theorem subspaceA_eq (h : Kz.PosDef) : subspaceA μ Kz Kzx kx noise = sparseA μ Kz Kzx kx noise := by
  unfold subspaceA innerA sparseA knMat
  rw [knDiag_eq μ Kzx kx noise h, transpose_transpose, Matrix.mul_add, Matrix.mul_one, Matrix.add_mul,
    (chol_spec h).mul]
  congr 1
  have e := chol_mul_iLzKzx h Kzx
  calc chol Kz * (iLzKzx Kz Kzx * (diagonal (sparseNoise μ Kz Kzx kx noise))⁻¹ * (iLzKzx Kz Kzx)ᵀ) * (chol Kz)ᵀ
      = (chol Kz * iLzKzx Kz Kzx) * (diagonal (sparseNoise μ Kz Kzx kx noise))⁻¹ *
          (chol Kz * iLzKzx Kz Kzx)ᵀ := by
        rw [transpose_mul]; simp only [Matrix.mul_assoc]
    _ = _ := by rw [e]

theorem muShift_eq (h : Kz.PosDef) :
    Kz⁻¹ *ᵥ muShift μ Kz Kzx kx noise ybar = sparseWeights μ Kz Kzx kx noise ybar := by
  have hA := subspaceA_eq μ Kzx kx noise h
  unfold sparseWeights muShift prodYBar
  rw [← hA, transpose_transpose, transpose_transpose]
  simp only [mulVec_mulVec]
  congr 1
  unfold subspaceA knMat iLzKzx
  rw [knDiag_eq μ Kzx kx noise h, Matrix.mul_inv_rev, Matrix.mul_inv_rev]
  have e : Kz⁻¹ * chol Kz = ((chol Kz)ᵀ)⁻¹ := by
    rw [← chol_inv h, transpose_nonsing_inv, Matrix.mul_assoc, nonsing_inv_mul _ (chol_unit h), Matrix.mul_one]
  calc _ = (Kz⁻¹ * chol Kz) * (innerA μ Kz Kzx kx noise)⁻¹ *
      ((chol Kz)⁻¹ * (Kzx * (diagonal (sparseNoise μ Kz Kzx kx noise))⁻¹)) := by
        simp only [Matrix.mul_assoc]
    _ = _ := by rw [e]; simp only [Matrix.mul_assoc]

end Sparse

end Stheno
