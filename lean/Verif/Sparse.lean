import Verif.NumericsSpec
import Verif.Props.Divergence

/-!
# Sparse approximations as matrix computations

The evidence lower bound that `_compute` returns is the log-density of the approximate model, with a correction for VFE. It is a lower
bound on the log-density of the exact model, and both are equal if the inducing points are the data.
-/

namespace Stheno

open Matrix

section
variable {n k : ℕ}

/-- `Q = K_xz K_z⁻¹ K_zx` -/
noncomputable def nystrom (Kz : Matrix (Fin n) (Fin n) ℝ) (Kzx : Matrix (Fin n) (Fin k) ℝ) : Matrix (Fin k) (Fin k) ℝ :=
  Kzxᵀ * Kz⁻¹ * Kzx

theorem dotProduct_mul_mul {W : Matrix (Fin n) (Fin k) ℝ} {B : Matrix (Fin n) (Fin n) ℝ} (y : Fin k → ℝ) :
    y ⬝ᵥ ((Wᵀ * B * W) *ᵥ y) = (W *ᵥ y) ⬝ᵥ (B *ᵥ (W *ᵥ y)) := by
  rw [Matrix.mul_assoc, ← mulVec_mulVec, ← mulVec_mulVec, dotProduct_mulVec, vecMul_transpose]

theorem one_add_posDef {M : Matrix (Fin n) (Fin n) ℝ} (h : M.PosSemidef) : (1 + M).PosDef := Matrix.PosDef.one.add_posSemidef h

theorem conj_posSemidef {M : Matrix (Fin k) (Fin k) ℝ} (h : M.PosSemidef) (W : Matrix (Fin n) (Fin k) ℝ) : (W * M * Wᵀ).PosSemidef := by
  have := h.mul_mul_conjTranspose_same W
  rwa [conjTranspose_eq_transpose_of_trivial] at this

/-- The Woodbury identity for `WᵀW + N`. -/
theorem woodbury {N : Matrix (Fin k) (Fin k) ℝ} (hN : N.PosDef) (W : Matrix (Fin n) (Fin k) ℝ) :
    (Wᵀ * W + N)⁻¹ = N⁻¹ - N⁻¹ * Wᵀ * (1 + W * N⁻¹ * Wᵀ)⁻¹ * W * N⁻¹ := by
  have hB := one_add_posDef (conj_posSemidef hN.inv.posSemidef W)
  have := add_mul_mul_inv_eq_sub N Wᵀ 1 W hN.isUnit isUnit_one (by rw [inv_one]; exact hB.isUnit)
  rwa [inv_one, Matrix.mul_one, add_comm] at this

/-- The determinant identity for `WᵀW + N`. -/
theorem det_woodbury {N : Matrix (Fin k) (Fin k) ℝ} (hN : N.PosDef) (W : Matrix (Fin n) (Fin k) ℝ) :
    (Wᵀ * W + N).det = N.det * (1 + W * N⁻¹ * Wᵀ).det := by
  have hu : IsUnit N.det := hN.isUnit.map detMonoidHom
  have e : Wᵀ * W + N = N * (1 + (N⁻¹ * Wᵀ) * W) := by
    rw [Matrix.mul_add, Matrix.mul_one, Matrix.mul_assoc, ← Matrix.mul_assoc N, mul_nonsing_inv _ hu, Matrix.one_mul, add_comm]
  rw [e, det_mul, det_one_add_mul_comm, ← Matrix.mul_assoc]

theorem symm_of_posDef {N : Matrix (Fin k) (Fin k) ℝ} (hN : N.PosDef) : Nᵀ = N := by
  have := hN.isHermitian
  rwa [IsHermitian, conjTranspose_eq_transpose_of_trivial] at this

variable {Kz : Matrix (Fin n) (Fin n) ℝ} {Kzx : Matrix (Fin n) (Fin k) ℝ} {kx noise ybar : Fin k → ℝ} {μ : Method}

/-- **The evidence lower bound** is the log-density of the data under the approximate model, less a correction for VFE. -/
theorem elboOf_eq (h : Kz.PosDef) (hn : ∀ j, 0 < knDiag μ Kz Kzx kx noise j) :
    elboOf μ Kz Kzx kx noise ybar =
      (⟨0, nystrom Kz Kzx + diagonal (sparseNoise μ Kz Kzx kx noise)⟩ : Normal k).logpdfFull ybar -
      1 / 2 * tracePart μ Kz Kzx kx noise := by
  have hN : (knMat μ Kz Kzx kx noise).PosDef := posDef_diagonal_iff.2 hn
  have hq : nystrom Kz Kzx = (iLzKzx Kz Kzx)ᵀ * iLzKzx Kz Kzx := (iLzKzx_mul h Kzx).symm
  rw [← knDiag_eq μ Kzx kx noise h, hq]
  change _ = (⟨0, (iLzKzx Kz Kzx)ᵀ * iLzKzx Kz Kzx + knMat μ Kz Kzx kx noise⟩ : Normal k).logpdfFull ybar - _
  have hB : (innerA μ Kz Kzx kx noise).PosDef := by
    unfold innerA
    rw [transpose_transpose]
    exact one_add_posDef (conj_posSemidef hN.inv.posSemidef _)
  unfold elboOf Normal.logpdfFull
  have hdet := det_woodbury hN (iLzKzx Kz Kzx)
  have hinv := woodbury hN (iLzKzx Kz Kzx)
  have eA : 1 + iLzKzx Kz Kzx * (knMat μ Kz Kzx kx noise)⁻¹ * (iLzKzx Kz Kzx)ᵀ = innerA μ Kz Kzx kx noise := by
    unfold innerA; rw [transpose_transpose]
  rw [eA] at hdet hinv
  have hlog : Real.log ((2 * Real.pi) • knMat μ Kz Kzx kx noise).det = k * Real.log (2 * Real.pi) + Real.log (knMat μ Kz Kzx kx noise).det := by
    rw [det_smul, Fintype.card_fin, Real.log_mul (pow_ne_zero _ (by positivity)) hN.det_pos.ne', Real.log_pow]
  have hquad : ybar ⬝ᵥ (((iLzKzx Kz Kzx)ᵀ * iLzKzx Kz Kzx + knMat μ Kz Kzx kx noise)⁻¹ *ᵥ ybar) =
      ybar ⬝ᵥ ((knMat μ Kz Kzx kx noise)⁻¹ *ᵥ ybar) -
        prodYBar μ Kz Kzx kx noise ybar ⬝ᵥ ((innerA μ Kz Kzx kx noise)⁻¹ *ᵥ prodYBar μ Kz Kzx kx noise ybar) := by
    rw [hinv, sub_mulVec, dotProduct_sub]
    congr 1
    unfold prodYBar
    rw [transpose_transpose, ← dotProduct_mul_mul, transpose_mul, symm_of_posDef hN.inv]
    simp only [Matrix.mul_assoc]
  simp only [sub_zero]
  rw [hdet, hquad, hlog, Real.log_mul hN.det_pos.ne' hB.det_pos.ne']
  ring

/-! ## The bound -/

/-- Adding variance makes quadratic forms smaller. -/
theorem quad_le {A D : Matrix (Fin k) (Fin k) ℝ} (hA : A.PosDef) (hD : D.PosSemidef) (y : Fin k → ℝ) :
    y ⬝ᵥ ((A + D)⁻¹ *ᵥ y) ≤ y ⬝ᵥ (A⁻¹ *ᵥ y) := by
  have hAD := hA.add_posSemidef hD
  set u := (A + D)⁻¹ *ᵥ y with hu
  set v := A⁻¹ *ᵥ y with hv
  have eu : (A + D) *ᵥ u = y := by
    rw [hu, mulVec_mulVec, mul_nonsing_inv _ (hAD.isUnit.map detMonoidHom), one_mulVec]
  have ev : A *ᵥ v = y := by
    rw [hv, mulVec_mulVec, mul_nonsing_inv _ (hA.isUnit.map detMonoidHom), one_mulVec]
  have h1 : 0 ≤ (v - u) ⬝ᵥ (A *ᵥ (v - u)) := by simpa using hA.posSemidef.dotProduct_mulVec_nonneg (v - u)
  have h2 : 0 ≤ u ⬝ᵥ (D *ᵥ u) := by simpa using hD.dotProduct_mulVec_nonneg u
  have h3 : v ⬝ᵥ (A *ᵥ u) = u ⬝ᵥ y := by
    rw [dotProduct_mulVec, ← mulVec_transpose, symm_of_posDef hA, ev, dotProduct_comm]
  have h4 : u ⬝ᵥ (A *ᵥ u) + u ⬝ᵥ (D *ᵥ u) = u ⬝ᵥ y := by
    rw [← dotProduct_add, ← add_mulVec, eu]
  rw [mulVec_sub, ev, dotProduct_sub, sub_dotProduct, sub_dotProduct, h3] at h1
  rw [dotProduct_comm y u, dotProduct_comm y v]
  linarith

/-- The trace of a product of positive semi-definite matrices is not negative. -/
theorem trace_mul_nonneg {A D : Matrix (Fin k) (Fin k) ℝ} (hA : A.PosDef) (hD : D.PosSemidef) : 0 ≤ (A * D).trace := by
  have e : (A * D).trace = ((chol A)ᵀ * D * chol A).trace := by
    conv_lhs => rw [← (chol_spec hA).mul]
    rw [Matrix.mul_assoc, Matrix.trace_mul_comm]
  rw [e]
  have := conj_posSemidef hD (chol A)ᵀ
  rw [transpose_transpose] at this
  exact this.trace_nonneg

/-- **The bound**: the log-density of the exact model is at least that of the approximate model less the correction. -/
theorem logpdf_bound {N D : Matrix (Fin k) (Fin k) ℝ} (hN : N.PosDef) (W : Matrix (Fin n) (Fin k) ℝ) (hD : D.PosSemidef) (y : Fin k → ℝ) :
    (⟨0, Wᵀ * W + N⟩ : Normal k).logpdfFull y - 1 / 2 * (N⁻¹ * D).trace ≤ (⟨0, Wᵀ * W + D + N⟩ : Normal k).logpdfFull y := by
  have hA : (Wᵀ * W + N).PosDef := by
    refine Matrix.PosDef.posSemidef_add ?_ hN
    have := conj_posSemidef (M := 1) Matrix.PosDef.one.posSemidef Wᵀ
    rwa [Matrix.mul_one, transpose_transpose] at this
  have hAD := hA.add_posSemidef hD
  have hkl := (C39_kl_zero (g := ⟨0, Wᵀ * W + N + D⟩) (h := ⟨0, Wᵀ * W + N⟩) hAD hA).1
  have hq := quad_le hA hD y
  have ht : ((Wᵀ * W + N)⁻¹ * D).trace ≤ (N⁻¹ * D).trace := by
    have hB := one_add_posDef (conj_posSemidef hN.inv.posSemidef W)
    rw [woodbury hN, Matrix.sub_mul, Matrix.trace_sub]
    have := trace_mul_nonneg hB.inv (conj_posSemidef hD (W * N⁻¹))
    rw [transpose_mul, symm_of_posDef hN.inv] at this
    have e : (N⁻¹ * Wᵀ * (1 + W * N⁻¹ * Wᵀ)⁻¹ * W * N⁻¹ * D).trace = ((1 + W * N⁻¹ * Wᵀ)⁻¹ * (W * N⁻¹ * D * (N⁻¹ * Wᵀ))).trace := by
      rw [show N⁻¹ * Wᵀ * (1 + W * N⁻¹ * Wᵀ)⁻¹ * W * N⁻¹ * D = (N⁻¹ * Wᵀ) * ((1 + W * N⁻¹ * Wᵀ)⁻¹ * (W * N⁻¹ * D)) by
        simp only [Matrix.mul_assoc], Matrix.trace_mul_comm]
      simp only [Matrix.mul_assoc]
    rw [e]
    linarith
  unfold Normal.kl at hkl
  simp only [sub_self, zero_dotProduct, zero_add] at hkl
  rw [Matrix.mul_add, nonsing_inv_mul _ (hA.isUnit.map detMonoidHom), Matrix.trace_add, Matrix.trace_one, Fintype.card_fin] at hkl
  unfold Normal.logpdfFull
  simp only [sub_zero]
  rw [show Wᵀ * W + D + N = Wᵀ * W + N + D by abel]
  linarith

/-- **VFE computes a lower bound** on the log-density of the data under the exact model. -/
theorem elboOf_le {K : Matrix (Fin k) (Fin k) ℝ} (h : Kz.PosDef) (hn : ∀ j, 0 < noise j) (hk : ∀ j, kx j = K j j)
    (hD : (K - nystrom Kz Kzx).PosSemidef) : elboOf .vfe Kz Kzx kx noise ybar ≤ (⟨0, K + diagonal noise⟩ : Normal k).logpdfFull ybar := by
  have hN : (diagonal noise).PosDef := posDef_diagonal_iff.2 hn
  rw [elboOf_eq h fun j => by rw [knDiag_eq .vfe Kzx kx noise h]; exact hn j]
  have hb := logpdf_bound hN (iLzKzx Kz Kzx) hD ybar
  have hq : (iLzKzx Kz Kzx)ᵀ * iLzKzx Kz Kzx = nystrom Kz Kzx := iLzKzx_mul h Kzx
  rw [hq, add_sub_cancel] at hb
  have ht : tracePart .vfe Kz Kzx kx noise = ((diagonal noise)⁻¹ * (K - nystrom Kz Kzx)).trace := by
    simp only [tracePart, knDiag, add_zero, Matrix.trace, Matrix.diag]
    refine Finset.sum_congr rfl fun j _ => ?_
    have hi : (diagonal noise)⁻¹ = diagonal fun j => (noise j)⁻¹ := by
      refine inv_eq_left_inv ?_
      rw [diagonal_mul_diagonal, ← diagonal_one]
      congr 1
      funext j
      exact inv_mul_cancel₀ (hn j).ne'
    rw [hi, diagonal_mul, diagCorrection, hk, qxDiag_eq h, Matrix.sub_apply, div_eq_inv_mul]
    rfl
  rw [ht]
  exact hb

/-! ## Inducing points at the data -/

section
variable {K : Matrix (Fin k) (Fin k) ℝ}

theorem nystrom_self (h : K.PosDef) : nystrom K K = K := by
  have hu : IsUnit K.det := h.isUnit.map detMonoidHom
  unfold nystrom
  rw [symm_of_posDef h, mul_nonsing_inv _ hu, Matrix.one_mul]

theorem sparseNoise_self (h : K.PosDef) (μ : Method) (hk : ∀ j, μ ≠ .dtc → kx j = K j j) : sparseNoise μ K K kx noise = noise := by
  funext j
  cases μ with
  | fitc =>
    have := nystrom_self h
    unfold nystrom at this
    simp only [sparseNoise]
    rw [this, hk j (by simp), sub_self, add_zero]
  | vfe => rfl
  | dtc => rfl

theorem tracePart_self (h : K.PosDef) (μ : Method) (hk : ∀ j, μ ≠ .dtc → kx j = K j j) : tracePart μ K K kx noise = 0 := by
  cases μ with
  | vfe =>
    refine Finset.sum_eq_zero fun j _ => ?_
    have := nystrom_self h
    unfold nystrom at this
    rw [diagCorrection, qxDiag_eq h, this, hk j (by simp), sub_self, zero_div]
  | fitc => rfl
  | dtc => rfl

/-- The evidence lower bound is the log-density. -/
theorem elboOf_self (h : K.PosDef) (hk : ∀ j, μ ≠ .dtc → kx j = K j j) (hn : ∀ j, 0 < noise j) :
    elboOf μ K K kx noise ybar = (⟨0, K + diagonal noise⟩ : Normal k).logpdfFull ybar := by
  have hs := sparseNoise_self (noise := noise) h μ hk
  rw [elboOf_eq h (by rw [knDiag_eq μ K kx noise h, hs]; exact hn), hs, nystrom_self h, tracePart_self h μ hk]
  ring

theorem sparseA_self (h : K.PosDef) (hk : ∀ j, μ ≠ .dtc → kx j = K j j) (hn : ∀ j, 0 < noise j) :
    sparseA μ K K kx noise = K * (diagonal noise)⁻¹ * (K + diagonal noise) := by
  have hN : (diagonal noise).PosDef := posDef_diagonal_iff.2 hn
  unfold sparseA
  rw [sparseNoise_self h μ hk, symm_of_posDef h, Matrix.mul_add, Matrix.mul_assoc K (diagonal noise)⁻¹ (diagonal noise),
    nonsing_inv_mul _ (hN.isUnit.map detMonoidHom), Matrix.mul_one, add_comm]

/-- The weights of the posterior mean are those of the exact posterior. -/
theorem sparseWeights_self (h : K.PosDef) (hk : ∀ j, μ ≠ .dtc → kx j = K j j) (hn : ∀ j, 0 < noise j) :
    sparseWeights μ K K kx noise ybar = (K + diagonal noise)⁻¹ *ᵥ ybar := by
  have hN : (diagonal noise).PosDef := posDef_diagonal_iff.2 hn
  have hu : IsUnit (K * (diagonal noise)⁻¹).det := by
    rw [det_mul]
    exact (h.isUnit.map detMonoidHom).mul (hN.inv.isUnit.map detMonoidHom)
  unfold sparseWeights
  rw [sparseA_self h hk hn, sparseNoise_self h μ hk, Matrix.mul_inv_rev, mulVec_mulVec, Matrix.mul_assoc, nonsing_inv_mul _ hu,
    Matrix.mul_one]

/-- The corrections of the posterior kernel are those of the exact posterior. -/
theorem sparse_inv_self (h : K.PosDef) (hk : ∀ j, μ ≠ .dtc → kx j = K j j) (hn : ∀ j, 0 < noise j) :
    K⁻¹ - (sparseA μ K K kx noise)⁻¹ = (K + diagonal noise)⁻¹ := by
  have hN : (diagonal noise).PosDef := posDef_diagonal_iff.2 hn
  have hKN : (K + diagonal noise).PosDef := h.add hN
  have hNu : IsUnit (diagonal noise).det := hN.isUnit.map detMonoidHom
  rw [sparseA_self h hk hn, Matrix.mul_inv_rev, Matrix.mul_inv_rev, nonsing_inv_nonsing_inv _ hNu]
  have e : K⁻¹ = (K + diagonal noise)⁻¹ * (1 + diagonal noise * K⁻¹) := by
    have : (K + diagonal noise) * K⁻¹ = 1 + diagonal noise * K⁻¹ := by
      rw [Matrix.add_mul, mul_nonsing_inv _ (h.isUnit.map detMonoidHom)]
    rw [← this, ← Matrix.mul_assoc, nonsing_inv_mul _ (hKN.isUnit.map detMonoidHom), Matrix.one_mul]
  rw [Matrix.mul_add, Matrix.mul_one] at e
  rw [sub_eq_iff_eq_add]
  exact e

end

end

end Stheno
