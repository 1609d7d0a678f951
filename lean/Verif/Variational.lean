import Verif.Sparse

/-!
# The approximating distribution of VFE

The ELBO is the maximum, over the distributions of the inducing variables, of the expected log-likelihood of the data less the
Kullback-Leibler divergence from the prior. It is attained only at the mean and the covariance that `_compute` gives.
-/

namespace Stheno

open Matrix MeasureTheory ProbabilityTheory InformationTheory

section
variable {n k : ℕ} {Kz : Matrix (Fin n) (Fin n) ℝ} {Kzx : Matrix (Fin n) (Fin k) ℝ} {kx noise : Fin k → ℝ} {N : Matrix (Fin k) (Fin k) ℝ}

/-! ## Matrices -/

theorem addA_posDef (hK : Kz.PosDef) (hN : N.PosDef) (Kzx : Matrix (Fin n) (Fin k) ℝ) : (Kz + Kzx * N⁻¹ * Kzxᵀ).PosDef :=
  hK.add_posSemidef (conj_posSemidef hN.inv.posSemidef Kzx)

/-- The Woodbury identity for `Q + N`. -/
theorem nystrom_inv (hK : Kz.PosDef) (hN : N.PosDef) (Kzx : Matrix (Fin n) (Fin k) ℝ) :
    (nystrom Kz Kzx + N)⁻¹ = N⁻¹ - N⁻¹ * Kzxᵀ * (Kz + Kzx * N⁻¹ * Kzxᵀ)⁻¹ * Kzx * N⁻¹ := by
  have hA := addA_posDef hK hN Kzx
  have := add_mul_mul_inv_eq_sub N Kzxᵀ Kz⁻¹ Kzx hN.isUnit hK.inv.isUnit
    (by rw [nonsing_inv_nonsing_inv _ (hK.isUnit.map detMonoidHom)]; exact hA.isUnit)
  rwa [nonsing_inv_nonsing_inv _ (hK.isUnit.map detMonoidHom), add_comm] at this

/-- The determinant of `Q + N`. -/
theorem nystrom_det (hK : Kz.PosDef) (hN : N.PosDef) (Kzx : Matrix (Fin n) (Fin k) ℝ) :
    (nystrom Kz Kzx + N).det * Kz.det = N.det * (Kz + Kzx * N⁻¹ * Kzxᵀ).det := by
  have hu : IsUnit N.det := hN.isUnit.map detMonoidHom
  have hk : IsUnit Kz.det := hK.isUnit.map detMonoidHom
  have e1 : nystrom Kz Kzx + N = N * (1 + (N⁻¹ * Kzxᵀ) * (Kz⁻¹ * Kzx)) := by
    rw [Matrix.mul_add, Matrix.mul_one, Matrix.mul_assoc, ← Matrix.mul_assoc N, mul_nonsing_inv _ hu, Matrix.one_mul, add_comm]
    unfold nystrom
    rw [Matrix.mul_assoc]
  have e2 : Kz + Kzx * N⁻¹ * Kzxᵀ = Kz * (1 + (Kz⁻¹ * Kzx) * (N⁻¹ * Kzxᵀ)) := by
    rw [Matrix.mul_add, Matrix.mul_one, ← Matrix.mul_assoc Kz, mul_nonsing_inv_cancel_left _ _ hk, Matrix.mul_assoc]
  rw [e1, e2, det_mul, det_mul, det_one_add_mul_comm]
  ring

/-- The weights with which data are predicted from the inducing variables: `K_z⁻¹ K_zx`. -/
noncomputable def predictor (Kz : Matrix (Fin n) (Fin n) ℝ) (Kzx : Matrix (Fin n) (Fin k) ℝ) : Matrix (Fin n) (Fin k) ℝ := Kz⁻¹ * Kzx

/-- The optimal approximating distribution, for inducing variables with mean `mz`. -/
noncomputable def optimal (Kz : Matrix (Fin n) (Fin n) ℝ) (Kzx : Matrix (Fin n) (Fin k) ℝ) (N : Matrix (Fin k) (Fin k) ℝ) (mz : Fin n → ℝ)
    (ybar : Fin k → ℝ) : Normal n :=
  ⟨mz + (Kz * (Kz + Kzx * N⁻¹ * Kzxᵀ)⁻¹ * Kzx * N⁻¹) *ᵥ ybar, Kz * (Kz + Kzx * N⁻¹ * Kzxᵀ)⁻¹ * Kz⟩

theorem optimal_posDef (hK : Kz.PosDef) (hN : N.PosDef) (mz : Fin n → ℝ) (ybar : Fin k → ℝ) : (optimal Kz Kzx N mz ybar).var.PosDef := by
  have hA := (addA_posDef hK hN Kzx).inv
  have := hA.mul_mul_conjTranspose_same (B := Kz) (Matrix.vecMul_injective_iff_isUnit.2 hK.isUnit)
  rwa [conjTranspose_eq_transpose_of_trivial, symm_of_posDef hK] at this

/-- The precision of the optimal distribution. -/
theorem optimal_inv (hK : Kz.PosDef) (hN : N.PosDef) (mz : Fin n → ℝ) (ybar : Fin k → ℝ) :
    (optimal Kz Kzx N mz ybar).var⁻¹ = Kz⁻¹ + predictor Kz Kzx * N⁻¹ * (predictor Kz Kzx)ᵀ := by
  have hu : IsUnit Kz.det := hK.isUnit.map detMonoidHom
  have hA : IsUnit (Kz + Kzx * N⁻¹ * Kzxᵀ).det := (addA_posDef hK hN Kzx).isUnit.map detMonoidHom
  unfold optimal predictor
  simp only
  rw [Matrix.mul_inv_rev, Matrix.mul_inv_rev, nonsing_inv_nonsing_inv _ hA, transpose_mul, symm_of_posDef hK.inv, Matrix.add_mul, Matrix.mul_add,
    mul_nonsing_inv _ hu, Matrix.mul_one]
  simp only [Matrix.mul_assoc]

/-! ## The bound -/

variable {Ω : Type*} [MeasurableSpace Ω] {P : Measure Ω}

/-- The random vector `f` depends on the random vector `u` as the data, without noise, depend on the inducing variables in the prior: what is left
when `f` is predicted from `u` has mean zero, has the variances it has in the prior, and is uncorrelated with `u`. The prior has means `mz`
and `mx`, covariances `Kz` and `Kzx`, and variances `kx`. -/
structure Follows (P : Measure Ω) (u : Ω → Fin n → ℝ) (f : Ω → Fin k → ℝ) (mz : Fin n → ℝ) (mx : Fin k → ℝ) (Kz : Matrix (Fin n) (Fin n) ℝ)
    (Kzx : Matrix (Fin n) (Fin k) ℝ) (kx : Fin k → ℝ) : Prop where
  memLp : ∀ j, MemLp (fun ω => f ω j) 2 P
  mean : ∀ j, ∫ ω, f ω j - mx j - ∑ i, (Kz⁻¹ * Kzx) i j * (u ω i - mz i) ∂P = 0
  var : ∀ j, Var[fun ω => f ω j - mx j - ∑ i, (Kz⁻¹ * Kzx) i j * (u ω i - mz i); P] = kx j - (Kzxᵀ * Kz⁻¹ * Kzx) j j
  cov : ∀ i j, cov[fun ω => u ω i, fun ω => f ω j - mx j - ∑ a, (Kz⁻¹ * Kzx) a j * (u ω a - mz a); P] = 0

variable {u : Ω → Fin n → ℝ} {f : Ω → Fin k → ℝ} {mz : Fin n → ℝ} {mx y : Fin k → ℝ} {q : Normal n}

/-- Expected squared deviations from the data. -/
theorem Follows.square [IsProbabilityMeasure P] (h : Follows P u f mz mx Kz Kzx kx) (hu : Describes P u q) (j : Fin k) :
    Integrable (fun ω => (y j - f ω j) ^ 2) P ∧ ∫ ω, (y j - f ω j) ^ 2 ∂P =
      (y j - mx j - ((predictor Kz Kzx)ᵀ *ᵥ (q.mean - mz)) j) ^ 2 + (kx j - (Kzxᵀ * Kz⁻¹ * Kzx) j j) +
        ((predictor Kz Kzx)ᵀ * q.var * predictor Kz Kzx) j j := by
  have hd := hu.affine (predictor Kz Kzx)ᵀ (-((predictor Kz Kzx)ᵀ *ᵥ mz))
  set s : Ω → ℝ := fun ω => ((predictor Kz Kzx)ᵀ *ᵥ u ω + -((predictor Kz Kzx)ᵀ *ᵥ mz)) j with hs
  have es : ∀ ω, s ω = ∑ i, (Kz⁻¹ * Kzx) i j * (u ω i - mz i) := fun ω => by
    rw [hs]
    simp only
    rw [← sub_eq_add_neg, ← mulVec_sub]
    rfl
  set r : Ω → ℝ := fun ω => f ω j - mx j - s ω with hr
  have er : r = fun ω => f ω j - mx j - ∑ i, (Kz⁻¹ * Kzx) i j * (u ω i - mz i) := funext fun ω => by rw [hr]; simp only; rw [es]
  have ms : MemLp s 2 P := hd.memLp j
  have mr : MemLp r 2 P := ((h.memLp j).sub (memLp_const _)).sub ms
  have r0 : ∫ ω, r ω ∂P = 0 := by rw [er]; exact h.mean j
  have rv : ∫ ω, r ω ^ 2 ∂P = kx j - (Kzxᵀ * Kz⁻¹ * Kzx) j j := by
    have := h.var j
    rw [← er, variance_of_integral_eq_zero mr.aemeasurable r0] at this
    exact this
  have s1 : ∫ ω, s ω ∂P = ((predictor Kz Kzx)ᵀ *ᵥ (q.mean - mz)) j := by
    rw [mulVec_sub, sub_eq_add_neg]
    exact hd.mean j
  have s2 : ∫ ω, s ω * s ω ∂P = ((predictor Kz Kzx)ᵀ * q.var * predictor Kz Kzx) j j + ((predictor Kz Kzx)ᵀ *ᵥ (q.mean - mz)) j ^ 2 := by
    have h1 := hd.cov j j
    rw [covariance_eq_sub ms ms] at h1
    change ∫ ω, s ω * s ω ∂P - (∫ ω, s ω ∂P) * ∫ ω, s ω ∂P = _ at h1
    rw [s1, transpose_transpose] at h1
    linarith
  have rs : ∫ ω, r ω * s ω ∂P = 0 := by
    have hc : cov[s, r; P] = 0 := by
      have e : s = fun ω => ∑ i, (Kz⁻¹ * Kzx) i j * (u ω i - mz i) := funext es
      have hi : ∀ i, MemLp (fun ω => (Kz⁻¹ * Kzx) i j * (u ω i - mz i)) 2 P := fun i => ((hu.memLp i).sub (memLp_const _)).const_mul _
      rw [e, covariance_fun_sum_left hi mr]
      refine Finset.sum_eq_zero fun i _ => ?_
      rw [covariance_const_mul_left, covariance_sub_const_left ((hu.memLp i).integrable (by norm_num)), er, h.cov, mul_zero]
    rw [covariance_comm, covariance_eq_sub mr ms, r0, zero_mul, sub_zero] at hc
    exact hc
  have ip : Integrable (fun ω => r ω * s ω) P := mr.integrable_mul ms
  have ir : Integrable (fun ω => r ω ^ 2) P := mr.integrable_sq
  have iss : Integrable (fun ω => s ω * s ω) P := ms.integrable_mul ms
  have is : Integrable s P := ms.integrable (by norm_num)
  have ir1 : Integrable r P := mr.integrable (by norm_num)
  have e : (fun ω => (y j - f ω j) ^ 2) = fun ω => (y j - mx j) ^ 2 + ((r ω ^ 2 + s ω * s ω) + (2 * (r ω * s ω) +
      ((-2 * (y j - mx j)) * s ω + (-2 * (y j - mx j)) * r ω))) := funext fun ω => by
    have : f ω j = r ω + s ω + mx j := by rw [hr]; ring
    rw [this]
    ring
  rw [e]
  have i1 : Integrable (fun ω => r ω ^ 2 + s ω * s ω) P := ir.add iss
  have i2 : Integrable (fun ω => 2 * (r ω * s ω)) P := ip.const_mul 2
  have i3 : Integrable (fun ω => (-2 * (y j - mx j)) * s ω) P := is.const_mul _
  have i4 : Integrable (fun ω => (-2 * (y j - mx j)) * r ω) P := ir1.const_mul _
  have i34 : Integrable (fun ω => (-2 * (y j - mx j)) * s ω + (-2 * (y j - mx j)) * r ω) P := i3.add i4
  have i234 : Integrable (fun ω => 2 * (r ω * s ω) + ((-2 * (y j - mx j)) * s ω + (-2 * (y j - mx j)) * r ω)) P := i2.add i34
  have i1234 : Integrable (fun ω => (r ω ^ 2 + s ω * s ω) + (2 * (r ω * s ω) + ((-2 * (y j - mx j)) * s ω + (-2 * (y j - mx j)) * r ω))) P :=
    i1.add i234
  refine ⟨(integrable_const _).add i1234, ?_⟩
  rw [integral_add (integrable_const _) i1234, integral_add i1 i234, integral_add ir iss, integral_add i2 i34, integral_add i3 i4,
    integral_const_mul, integral_const_mul, integral_const_mul, rv, s2, rs, s1, r0]
  simp
  ring

theorem diagonal_inv (hn : ∀ j, 0 < noise j) : (diagonal noise)⁻¹ = diagonal fun j => (noise j)⁻¹ := by
  refine inv_eq_left_inv ?_
  rw [diagonal_mul_diagonal, ← diagonal_one]
  congr 1
  funext j
  exact inv_mul_cancel₀ (hn j).ne'

theorem quad_diagonal (hn : ∀ j, 0 < noise j) (v : Fin k → ℝ) : v ⬝ᵥ ((diagonal noise)⁻¹ *ᵥ v) = ∑ j, (noise j)⁻¹ * v j ^ 2 := by
  rw [diagonal_inv hn]
  simp only [dotProduct, mulVec_diagonal]
  exact Finset.sum_congr rfl fun j _ => by ring

/-- The expected log-likelihood of the data. -/
theorem Follows.likelihood [IsProbabilityMeasure P] (h : Follows P u f mz mx Kz Kzx kx) (hu : Describes P u q) (hn : ∀ j, 0 < noise j) :
    Integrable (fun ω => (⟨f ω, diagonal noise⟩ : Normal k).logpdfFull y) P ∧
    ∫ ω, (⟨f ω, diagonal noise⟩ : Normal k).logpdfFull y ∂P =
      -(Real.log (diagonal noise).det + k * Real.log (2 * Real.pi) +
        ((y - mx - (predictor Kz Kzx)ᵀ *ᵥ (q.mean - mz)) ⬝ᵥ ((diagonal noise)⁻¹ *ᵥ (y - mx - (predictor Kz Kzx)ᵀ *ᵥ (q.mean - mz))) +
        ∑ j, (kx j - (Kzxᵀ * Kz⁻¹ * Kzx) j j) / noise j +
        (predictor Kz Kzx * (diagonal noise)⁻¹ * (predictor Kz Kzx)ᵀ * q.var).trace)) / 2 := by
  have hj : ∀ j, Integrable (fun ω => (noise j)⁻¹ * (y j - f ω j) ^ 2) P := fun j => (h.square hu j).1.const_mul _
  have hi : Integrable (fun ω => ∑ j, (noise j)⁻¹ * (y j - f ω j) ^ 2) P := integrable_finsetSum _ fun j _ => hj j
  unfold Normal.logpdfFull
  simp only [quad_diagonal hn, Pi.sub_apply]
  refine ⟨(((integrable_const _).add hi).neg).div_const 2, ?_⟩
  rw [integral_div, integral_neg, integral_add (integrable_const _) hi, integral_finsetSum _ fun j _ => hj j]
  simp only [integral_const_mul, (h.square hu _).2, integral_const, probReal_univ, one_smul]
  congr 3
  have ht : (predictor Kz Kzx * (diagonal noise)⁻¹ * (predictor Kz Kzx)ᵀ * q.var).trace =
      ∑ j, (noise j)⁻¹ * ((predictor Kz Kzx)ᵀ * q.var * predictor Kz Kzx) j j := by
    rw [show predictor Kz Kzx * (diagonal noise)⁻¹ * (predictor Kz Kzx)ᵀ * q.var =
        predictor Kz Kzx * ((diagonal noise)⁻¹ * ((predictor Kz Kzx)ᵀ * q.var)) by simp only [Matrix.mul_assoc],
      Matrix.trace_mul_comm, Matrix.mul_assoc, diagonal_inv hn]
    simp only [Matrix.trace, Matrix.diag, diagonal_mul]
  rw [ht, ← Finset.sum_add_distrib, ← Finset.sum_add_distrib]
  exact Finset.sum_congr rfl fun j _ => by rw [div_eq_inv_mul]; ring

/-- **The ELBO and distributions of the inducing variables.** The expected log-likelihood less the divergence from the prior is the ELBO less the
divergence from the optimal distribution. -/
theorem Follows.elbo [IsProbabilityMeasure P] (h : Follows P u f mz mx Kz Kzx kx) (hu : Describes P u q) (hn : ∀ j, 0 < noise j) (hK : Kz.PosDef) :
    ∫ ω, (⟨f ω, diagonal noise⟩ : Normal k).logpdfFull y ∂P - q.kl ⟨mz, Kz⟩ =
      elboOf .vfe Kz Kzx kx noise (y - mx) - q.kl (optimal Kz Kzx (diagonal noise) mz (y - mx)) := by
  have hN : (diagonal noise).PosDef := posDef_diagonal_iff.2 hn
  have hA := addA_posDef hK hN Kzx
  have ho := optimal_posDef (Kzx := Kzx) hK hN mz (y - mx)
  have hkn : ∀ j, 0 < knDiag .vfe Kz Kzx kx noise j := fun j => by simpa only [knDiag, add_zero] using hn j
  rw [(h.likelihood hu hn).2, elboOf_eq hK hkn]
  have ht : tracePart .vfe Kz Kzx kx noise = ∑ j, (kx j - (Kzxᵀ * Kz⁻¹ * Kzx) j j) / noise j := by
    simp only [tracePart, knDiag, add_zero]
    exact Finset.sum_congr rfl fun j _ => by rw [diagCorrection, qxDiag_eq hK]
  have hs : sparseNoise .vfe Kz Kzx kx noise = noise := rfl
  rw [ht, hs]
  -- determinants
  have hdet : Real.log (nystrom Kz Kzx + diagonal noise).det =
      Real.log (diagonal noise).det + Real.log Kz.det - Real.log (optimal Kz Kzx (diagonal noise) mz (y - mx)).var.det := by
    have h1 := nystrom_det hK hN Kzx
    have h2 : (optimal Kz Kzx (diagonal noise) mz (y - mx)).var.det * (Kz + Kzx * (diagonal noise)⁻¹ * Kzxᵀ).det = Kz.det * Kz.det := by
      unfold optimal
      simp only
      rw [det_mul, det_mul, det_nonsing_inv, Ring.inverse_eq_inv']
      field_simp [hA.det_pos.ne']
    have h3 : (nystrom Kz Kzx + diagonal noise).det * (optimal Kz Kzx (diagonal noise) mz (y - mx)).var.det = (diagonal noise).det * Kz.det := by
      have hk := hK.det_pos.ne'
      have ha := hA.det_pos.ne'
      have e : (nystrom Kz Kzx + diagonal noise).det * (optimal Kz Kzx (diagonal noise) mz (y - mx)).var.det *
          (Kz.det * (Kz + Kzx * (diagonal noise)⁻¹ * Kzxᵀ).det) = (diagonal noise).det * Kz.det *
          (Kz.det * (Kz + Kzx * (diagonal noise)⁻¹ * Kzxᵀ).det) := by
        calc _ = ((nystrom Kz Kzx + diagonal noise).det * Kz.det) *
            ((optimal Kz Kzx (diagonal noise) mz (y - mx)).var.det * (Kz + Kzx * (diagonal noise)⁻¹ * Kzxᵀ).det) := by ring
          _ = _ := by rw [h1, h2]; ring
      exact mul_right_cancel₀ (mul_ne_zero hk ha) e
    have h4 : (nystrom Kz Kzx + diagonal noise).det ≠ 0 := fun h0 => by
      rw [h0, zero_mul] at h3
      exact (mul_pos hN.det_pos hK.det_pos).ne h3
    have := congrArg Real.log h3
    rw [Real.log_mul h4 ho.det_pos.ne', Real.log_mul hN.det_pos.ne' hK.det_pos.ne'] at this
    linarith
  -- traces
  have htr : ((optimal Kz Kzx (diagonal noise) mz (y - mx)).var⁻¹ * q.var).trace =
      (Kz⁻¹ * q.var).trace + (predictor Kz Kzx * (diagonal noise)⁻¹ * (predictor Kz Kzx)ᵀ * q.var).trace := by
    rw [optimal_inv hK hN, Matrix.add_mul, Matrix.trace_add]
  -- quadratic forms
  set B := predictor Kz Kzx with hB
  set Ni := (diagonal noise)⁻¹ with hNi
  set yb := y - mx with hyb
  set d := q.mean - mz with hd
  set w := (Kz * (Kz + Kzx * Ni * Kzxᵀ)⁻¹ * Kzx * Ni) *ᵥ yb with hw
  have hNs : Niᵀ = Ni := symm_of_posDef hN.inv
  have hKs : (Kz⁻¹)ᵀ = Kz⁻¹ := symm_of_posDef hK.inv
  have hu' : IsUnit Kz.det := hK.isUnit.map detMonoidHom
  have hAu : IsUnit (Kz + Kzx * Ni * Kzxᵀ).det := hA.isUnit.map detMonoidHom
  have hBw : Bᵀ *ᵥ w = (Kzxᵀ * (Kz + Kzx * Ni * Kzxᵀ)⁻¹ * Kzx * Ni) *ᵥ yb := by
    rw [hw, mulVec_mulVec, hB, predictor, transpose_mul, hKs]
    congr 1
    simp only [Matrix.mul_assoc]
    rw [nonsing_inv_mul_cancel_left _ _ hu']
  have hLw : (Kz⁻¹ + B * Ni * Bᵀ) *ᵥ w = (B * Ni) *ᵥ yb := by
    have e := optimal_inv (Kzx := Kzx) hK hN mz yb
    rw [← hB, ← hNi] at e
    rw [← e, hw, mulVec_mulVec]
    congr 1
    show (Kz * (Kz + Kzx * Ni * Kzxᵀ)⁻¹ * Kz)⁻¹ * (Kz * (Kz + Kzx * Ni * Kzxᵀ)⁻¹ * Kzx * Ni) = Kz⁻¹ * Kzx * Ni
    generalize Kz + Kzx * Ni * Kzxᵀ = A at hAu
    rw [Matrix.mul_inv_rev, Matrix.mul_inv_rev, nonsing_inv_nonsing_inv _ hAu]
    simp only [Matrix.mul_assoc]
    rw [nonsing_inv_mul_cancel_left _ _ hu', mul_nonsing_inv_cancel_left _ _ hAu]
  have hq : yb ⬝ᵥ ((nystrom Kz Kzx + diagonal noise)⁻¹ *ᵥ yb) = yb ⬝ᵥ (Ni *ᵥ yb) - yb ⬝ᵥ (Ni *ᵥ (Bᵀ *ᵥ w)) := by
    rw [nystrom_inv hK hN, sub_mulVec, dotProduct_sub, hBw, mulVec_mulVec]
    simp only [Matrix.mul_assoc]
    rfl
  have sw : ∀ (M : Matrix (Fin n) (Fin n) ℝ) (a b : Fin n → ℝ), Mᵀ = M → a ⬝ᵥ (M *ᵥ b) = b ⬝ᵥ (M *ᵥ a) := fun M a b hM => by
    rw [dotProduct_mulVec, ← mulVec_transpose, hM, dotProduct_comm]
  have sk : ∀ a b : Fin k → ℝ, a ⬝ᵥ (Ni *ᵥ b) = b ⬝ᵥ (Ni *ᵥ a) := fun a b => by
    rw [dotProduct_mulVec, ← mulVec_transpose, hNs, dotProduct_comm]
  have hLs : (Kz⁻¹ + B * Ni * Bᵀ)ᵀ = Kz⁻¹ + B * Ni * Bᵀ := by
    rw [transpose_add, hKs, transpose_mul, transpose_mul, transpose_transpose, hNs, Matrix.mul_assoc]
  have hBv : ∀ a : Fin n → ℝ, ∀ b : Fin k → ℝ, a ⬝ᵥ ((B * Ni) *ᵥ b) = b ⬝ᵥ (Ni *ᵥ (Bᵀ *ᵥ a)) := fun a b => by
    rw [← mulVec_mulVec, dotProduct_mulVec, ← mulVec_transpose, sk]
  have hquad : (yb - Bᵀ *ᵥ d) ⬝ᵥ (Ni *ᵥ (yb - Bᵀ *ᵥ d)) + d ⬝ᵥ (Kz⁻¹ *ᵥ d) =
      yb ⬝ᵥ ((nystrom Kz Kzx + diagonal noise)⁻¹ *ᵥ yb) + (w - d) ⬝ᵥ ((Kz⁻¹ + B * Ni * Bᵀ) *ᵥ (w - d)) := by
    clear_value d w
    rw [hq, mulVec_sub _ w, hLw]
    simp only [mulVec_sub, sub_dotProduct, dotProduct_sub]
    rw [sw _ w d hLs, hLw, hBv, hBv, sk (Bᵀ *ᵥ d) yb, add_mulVec, dotProduct_add]
    have : d ⬝ᵥ ((B * Ni * Bᵀ) *ᵥ d) = (Bᵀ *ᵥ d) ⬝ᵥ (Ni *ᵥ (Bᵀ *ᵥ d)) := by
      rw [← mulVec_mulVec, hBv]
    rw [this]
    ring
  have e1 : (mz - q.mean) ⬝ᵥ (Kz⁻¹ *ᵥ (mz - q.mean)) = d ⬝ᵥ (Kz⁻¹ *ᵥ d) := by
    rw [show mz - q.mean = -d by rw [hd]; abel, mulVec_neg, dotProduct_neg, neg_dotProduct, neg_neg]
  have e2 : (optimal Kz Kzx (diagonal noise) mz yb).mean - q.mean = w - d := by
    show mz + w - q.mean = w - d
    rw [hd]; abel
  unfold Normal.kl Normal.logpdfFull
  simp only [sub_zero]
  rw [hdet, htr, e1, e2, optimal_inv hK hN]
  rw [← hB, ← hNi]
  linarith

/-! ## All distributions -/

section
variable {g h : Normal n} {Ω' Ω'' : Type*} [MeasurableSpace Ω'] [MeasurableSpace Ω''] {Q : Measure Ω'} {R : Measure Ω''} {v : Ω' → Fin n → ℝ}
  {w : Ω'' → Fin n → ℝ}

/-- Densities of normals with respect to each other. -/
theorem IsNormal.relative (hv : IsNormal Q v g) (hw : IsNormal R w h) (hg : g.var.PosDef) (hh : h.var.PosDef) :
    R.map w = (Q.map v).withDensity fun x => ENNReal.ofReal (Real.exp (h.logpdfFull x - g.logpdfFull x)) := by
  have hr : Measurable fun x => ENNReal.ofReal (Real.exp (h.logpdfFull x - g.logpdfFull x)) :=
    ENNReal.measurable_ofReal.comp (Real.measurable_exp.comp ((measurable_logpdfFull h).sub (measurable_logpdfFull g)))
  have hq : Measurable fun x => ENNReal.ofReal (Real.exp (g.logpdfFull x)) :=
    ENNReal.measurable_ofReal.comp (Real.measurable_exp.comp (measurable_logpdfFull g))
  rw [hv.withDensity hg, hw.withDensity hh, ← withDensity_mul _ hq hr]
  congr 1
  funext x
  rw [Pi.mul_apply, ← ENNReal.ofReal_mul (Real.exp_nonneg _), ← Real.exp_add]
  congr 2
  ring

/-- Divergences from two normals, for any distribution with finite variances. -/
theorem Describes.divergences [IsProbabilityMeasure P] (hu : Describes P u q) (hv : IsNormal Q v g) (hw : IsNormal R w h) (hg : g.var.PosDef)
    (hh : h.var.PosDef) (hf : klDiv (P.map u) (Q.map v) ≠ ⊤) : klDiv (P.map u) (R.map w) ≠ ⊤ ∧
    (klDiv (P.map u) (Q.map v)).toReal - (klDiv (P.map u) (R.map w)).toReal = q.kl g - q.kl h := by
  have hQ := hv.isProbabilityMeasure
  have hR := hw.isProbabilityMeasure
  have hm : AEMeasurable u P := aemeasurable_pi_lambda _ fun i => (hu.memLp i).aemeasurable
  have hμ : IsProbabilityMeasure (P.map u) := Measure.isProbabilityMeasure_map hm
  have hν : IsProbabilityMeasure (Q.map v) := Measure.isProbabilityMeasure_map hv.gaussian.aemeasurable
  have hρ : IsProbabilityMeasure (R.map w) := Measure.isProbabilityMeasure_map hw.gaussian.aemeasurable
  obtain ⟨hac, hi⟩ := klDiv_ne_top_iff.1 hf
  have hd := hv.relative hw hg hh
  have hd' := hw.relative hv hh hg
  have hvw : Q.map v ≪ R.map w := by rw [hd']; exact withDensity_absolutelyContinuous _ _
  have hac' : P.map u ≪ R.map w := hac.trans hvw
  have hlm : Measurable fun x => h.logpdfFull x - g.logpdfFull x := (measurable_logpdfFull h).sub (measurable_logpdfFull g)
  have hr : Measurable fun x => ENNReal.ofReal (Real.exp (g.logpdfFull x - h.logpdfFull x)) :=
    ENNReal.measurable_ofReal.comp (Real.measurable_exp.comp ((measurable_logpdfFull g).sub (measurable_logpdfFull h)))
  have hl : llr (P.map u) (R.map w) =ᵐ[P.map u] fun x => llr (P.map u) (Q.map v) x - (h.logpdfFull x - g.logpdfFull x) := by
    have h1 := hac'.ae_le (Measure.rnDeriv_mul_rnDeriv (κ := R.map w) hac)
    have h2 := hac'.ae_le (Measure.rnDeriv_withDensity (R.map w) hr)
    rw [← hd'] at h2
    filter_upwards [h1, h2, Measure.rnDeriv_pos hac, hac.ae_le (Measure.rnDeriv_lt_top (P.map u) (Q.map v))] with x h1 h2 h3 h4
    rw [llr, llr, ← h1, Pi.mul_apply, h2, ENNReal.toReal_mul, ENNReal.toReal_ofReal (Real.exp_nonneg _),
      Real.log_mul (ENNReal.toReal_pos h3.ne' h4.ne).ne' (Real.exp_pos _).ne', Real.log_exp]
    ring
  have hli : Integrable (fun x => h.logpdfFull x - g.logpdfFull x) (P.map u) := by
    rw [integrable_map_measure hlm.aestronglyMeasurable hm]
    exact (hu.logpdf h).1.sub (hu.logpdf g).1
  refine ⟨klDiv_ne_top hac' ((hi.sub hli).congr hl.symm), ?_⟩
  rw [toReal_klDiv_of_measure_eq hac (by simp), toReal_klDiv_of_measure_eq hac' (by simp), integral_congr_ae hl, integral_sub hi hli,
    integral_map hm hlm.aestronglyMeasurable, integral_sub (hu.logpdf h).1 (hu.logpdf g).1, (hu.logpdf h).2, (hu.logpdf g).2]
  unfold Normal.kl
  have e : ∀ h : Normal n, (h.mean - q.mean) ⬝ᵥ (h.var⁻¹ *ᵥ (h.mean - q.mean)) = (q.mean - h.mean) ⬝ᵥ (h.var⁻¹ *ᵥ (q.mean - h.mean)) := fun h => by
    rw [← neg_sub q.mean, Matrix.mulVec_neg, neg_dotProduct_neg]
  rw [e g, e h]
  ring

/-- **The bound, for all distributions.** For inducing variables with any distribution that has finite variances and a finite divergence from
the prior: the expected log-likelihood less the divergence is at most the ELBO, and equal to it only for the optimal distribution. -/
theorem Follows.bound [IsProbabilityMeasure P] (hF : Follows P u f mz mx Kz Kzx kx) (hu : Describes P u q) (hn : ∀ j, 0 < noise j) (hK : Kz.PosDef)
    (hv : IsNormal Q v ⟨mz, Kz⟩) (hw : IsNormal R w (optimal Kz Kzx (diagonal noise) mz (y - mx))) (hf : klDiv (P.map u) (Q.map v) ≠ ⊤) :
    (∫ ω, (⟨f ω, diagonal noise⟩ : Normal k).logpdfFull y ∂P - (klDiv (P.map u) (Q.map v)).toReal ≤ elboOf .vfe Kz Kzx kx noise (y - mx)) ∧
    (∫ ω, (⟨f ω, diagonal noise⟩ : Normal k).logpdfFull y ∂P - (klDiv (P.map u) (Q.map v)).toReal = elboOf .vfe Kz Kzx kx noise (y - mx) ↔
      P.map u = R.map w) := by
  have hN : (diagonal noise).PosDef := posDef_diagonal_iff.2 hn
  have ho := optimal_posDef (Kzx := Kzx) hK hN mz (y - mx)
  have hR := hw.isProbabilityMeasure
  have hm : AEMeasurable u P := aemeasurable_pi_lambda _ fun i => (hu.memLp i).aemeasurable
  have hμ : IsProbabilityMeasure (P.map u) := Measure.isProbabilityMeasure_map hm
  have hρ : IsProbabilityMeasure (R.map w) := Measure.isProbabilityMeasure_map hw.gaussian.aemeasurable
  obtain ⟨h1, h2⟩ := hu.divergences hv hw hK ho hf
  have h3 := hF.elbo (y := y) hu hn hK
  have h4 : 0 ≤ (klDiv (P.map u) (R.map w)).toReal := ENNReal.toReal_nonneg
  refine ⟨by linarith, fun h5 => ?_, fun h5 => ?_⟩
  · have h6 : (klDiv (P.map u) (R.map w)).toReal = 0 := by linarith
    rcases (ENNReal.toReal_eq_zero_iff _).1 h6 with h7 | h7
    · exact klDiv_eq_zero_iff.1 h7
    · exact absurd h7 h1
  · have h6 : (klDiv (P.map u) (R.map w)).toReal = 0 := by rw [h5, klDiv_self]; rfl
    linarith

end

/-! ## The matrices of the code -/

/-- `mu`, and `K_z A⁻¹ K_z`. -/
theorem optimal_eq (hK : Kz.PosDef) (ybar : Fin k → ℝ) : optimal Kz Kzx (diagonal noise) mz ybar =
    ⟨fun i => mz i + muShift .vfe Kz Kzx kx noise ybar i, Kz * (subspaceA .vfe Kz Kzx kx noise)⁻¹ * Kz⟩ := by
  have hu : IsUnit Kz.det := hK.isUnit.map detMonoidHom
  have hA : sparseA .vfe Kz Kzx kx noise = Kz + Kzx * (diagonal noise)⁻¹ * Kzxᵀ := rfl
  have hm : muShift .vfe Kz Kzx kx noise ybar = Kz *ᵥ sparseWeights .vfe Kz Kzx kx noise ybar := by
    rw [← muShift_eq _ _ _ _ _ hK, mulVec_mulVec, mul_nonsing_inv _ hu, one_mulVec]
  rw [hm, subspaceA_eq _ _ _ _ hK, hA]
  unfold optimal sparseWeights
  rw [hA, mulVec_mulVec, mulVec_mulVec, ← Matrix.mul_assoc]
  rfl

/-- For every normal there are random vectors of this kind. -/
theorem follows_exists (hq : q.var.PosSemidef) (hk : ∀ j, 0 ≤ kx j - (Kzxᵀ * Kz⁻¹ * Kzx) j j) (mz : Fin n → ℝ) (mx : Fin k → ℝ) :
    ∃ (P : Measure (EuclideanSpace ℝ (Fin n) × EuclideanSpace ℝ (Fin k))) (u : _ → Fin n → ℝ) (f : _ → Fin k → ℝ),
      IsNormal P u q ∧ Follows P u f mz mx Kz Kzx kx := by
  obtain ⟨P, u, r, hu, hr, hi⟩ := exists_indep (g := q) (h := ⟨0, diagonal fun j => kx j - (Kzxᵀ * Kz⁻¹ * Kzx) j j⟩) hq
    (posSemidef_diagonal_iff.2 hk)
  have hP := hu.isProbabilityMeasure
  refine ⟨P, u, fun ω j => r ω j + mx j + ∑ i, (Kz⁻¹ * Kzx) i j * (u ω i - mz i), hu, ?_⟩
  have e : ∀ j, (fun ω => r ω j + mx j + ∑ i, (Kz⁻¹ * Kzx) i j * (u ω i - mz i) - mx j - ∑ i, (Kz⁻¹ * Kzx) i j * (u ω i - mz i)) =
      fun ω => r ω j := fun j => funext fun ω => by ring
  refine ⟨fun j => ?_, fun j => ?_, fun j => ?_, fun i j => ?_⟩
  · exact ((hr.memLp j).add (memLp_const _)).add (memLp_finsetSum _ fun i _ => ((hu.memLp i).sub (memLp_const _)).const_mul _)
  · simp only [e]
    exact hr.mean j
  · simp only [e]
    rw [← covariance_self (hr.memLp j).aemeasurable, hr.cov j j]
    exact diagonal_apply_eq _ _
  · simp only [e]
    exact (hi.comp (measurable_pi_apply i) (measurable_pi_apply j)).covariance_eq_zero (hu.memLp i) (hr.memLp j)

end

end Stheno
