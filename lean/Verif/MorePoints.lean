import Verif.Sparse

/-!
# More inducing points

If inducing variables can be written in terms of other inducing variables, then the approximation of the covariance by the former is at most that by the
latter, and so is the evidence lower bound.
-/

namespace Stheno

open Matrix

section
variable {n n' k : ℕ} {Kz : Matrix (Fin n) (Fin n) ℝ} {Kzx : Matrix (Fin n) (Fin k) ℝ} {Kz' : Matrix (Fin n') (Fin n') ℝ} {Kzx' : Matrix (Fin n') (Fin k) ℝ}
  {P : Matrix (Fin n') (Fin n) ℝ} {kx noise ybar : Fin k → ℝ}

theorem nystrom_quad (w : Fin k → ℝ) : w ⬝ᵥ (nystrom Kz Kzx *ᵥ w) = (Kzx *ᵥ w) ⬝ᵥ (Kz⁻¹ *ᵥ (Kzx *ᵥ w)) := by
  unfold nystrom
  rw [← mulVec_mulVec, ← mulVec_mulVec, dotProduct_mulVec, ← mulVec_transpose, transpose_transpose]

theorem nystrom_hermitian (h : Kz.PosDef) (Kzx : Matrix (Fin n) (Fin k) ℝ) : (nystrom Kz Kzx).IsHermitian := by
  have := (conj_posSemidef h.inv.posSemidef Kzxᵀ).1
  rwa [transpose_transpose] at this

/-- More inducing variables explain more. -/
theorem nystrom_mono (h : Kz.PosDef) (h' : Kz'.PosDef) (hK : Kz = Pᵀ * Kz' * P) (hx : Kzx = Pᵀ * Kzx') :
    (nystrom Kz' Kzx' - nystrom Kz Kzx).PosSemidef := by
  refine PosSemidef.of_dotProduct_mulVec_nonneg ((nystrom_hermitian h' _).sub (nystrom_hermitian h _)) fun w => ?_
  rw [star_trivial, sub_mulVec, dotProduct_sub, nystrom_quad, nystrom_quad]
  set y := Kzx' *ᵥ w with hy
  have ey : Kzx *ᵥ w = Pᵀ *ᵥ y := by rw [hx, hy, mulVec_mulVec]
  rw [ey]
  set u := Kz'⁻¹ *ᵥ y with hu
  set t := Kz⁻¹ *ᵥ (Pᵀ *ᵥ y) with ht
  have eu : Kz' *ᵥ u = y := by rw [hu, mulVec_mulVec, mul_nonsing_inv _ (h'.isUnit.map detMonoidHom), one_mulVec]
  have et : Pᵀ *ᵥ (Kz' *ᵥ (P *ᵥ t)) = Pᵀ *ᵥ y := by
    rw [mulVec_mulVec, mulVec_mulVec, ← hK, ht, mulVec_mulVec, mul_nonsing_inv _ (h.isUnit.map detMonoidHom), one_mulVec]
  have h1 : 0 ≤ (u - P *ᵥ t) ⬝ᵥ (Kz' *ᵥ (u - P *ᵥ t)) := by simpa using h'.posSemidef.dotProduct_mulVec_nonneg (u - P *ᵥ t)
  have adj : ∀ z : Fin n' → ℝ, (P *ᵥ t) ⬝ᵥ z = (Pᵀ *ᵥ z) ⬝ᵥ t := by
    intro z
    rw [dotProduct_comm, dotProduct_mulVec, ← mulVec_transpose]
  have h2 : u ⬝ᵥ (Kz' *ᵥ (P *ᵥ t)) = (P *ᵥ t) ⬝ᵥ y := by
    rw [dotProduct_mulVec, ← mulVec_transpose, symm_of_posDef h', eu, dotProduct_comm]
  rw [mulVec_sub, eu, dotProduct_sub, sub_dotProduct, sub_dotProduct, h2, adj, adj, et] at h1
  rw [dotProduct_comm y u]
  linarith

/-- **More inducing variables give a better bound.** -/
theorem elboOf_mono (h : Kz.PosDef) (h' : Kz'.PosDef) (hK : Kz = Pᵀ * Kz' * P) (hx : Kzx = Pᵀ * Kzx') (hn : ∀ j, 0 < noise j) :
    elboOf .vfe Kz Kzx kx noise ybar ≤ elboOf .vfe Kz' Kzx' kx noise ybar := by
  have hN : (diagonal noise).PosDef := posDef_diagonal_iff.2 hn
  rw [elboOf_eq h fun j => by rw [knDiag_eq .vfe Kzx kx noise h]; exact hn j, elboOf_eq h' fun j => by rw [knDiag_eq .vfe Kzx' kx noise h']; exact hn j]
  have hb := logpdf_bound hN (iLzKzx Kz Kzx) (nystrom_mono h h' hK hx) ybar
  have hq : (iLzKzx Kz Kzx)ᵀ * iLzKzx Kz Kzx = nystrom Kz Kzx := iLzKzx_mul h Kzx
  rw [hq, add_sub_cancel] at hb
  have ht : tracePart .vfe Kz Kzx kx noise - tracePart .vfe Kz' Kzx' kx noise = ((diagonal noise)⁻¹ * (nystrom Kz' Kzx' - nystrom Kz Kzx)).trace := by
    simp only [tracePart, knDiag, add_zero, Matrix.trace, Matrix.diag]
    rw [← Finset.sum_sub_distrib]
    refine Finset.sum_congr rfl fun j _ => ?_
    have hi : (diagonal noise)⁻¹ = diagonal fun j => (noise j)⁻¹ := by
      refine inv_eq_left_inv ?_
      rw [diagonal_mul_diagonal, ← diagonal_one]
      congr 1
      funext j
      exact inv_mul_cancel₀ (hn j).ne'
    rw [hi, diagonal_mul, diagCorrection, diagCorrection, qxDiag_eq h, qxDiag_eq h', Matrix.sub_apply, div_eq_inv_mul, div_eq_inv_mul]
    unfold nystrom
    ring
  have e : ∀ Kz Kzx, sparseNoise (n := n) .vfe Kz Kzx kx noise = noise := fun _ _ => rfl
  have e' : ∀ Kz Kzx, sparseNoise (n := n') .vfe Kz Kzx kx noise = noise := fun _ _ => rfl
  rw [e, e']
  rw [← ht] at hb
  linarith

end

end Stheno
