import Verif.Variational
import Verif.Conditional

/-!
# Observing through inducing variables

If `X` and `U` are jointly Gaussian and a linear function of `U` is observed with independent noise, then the conditional distribution of `X` is given
by the formulas that sparse approximations use.
-/

namespace Stheno

open Matrix MeasureTheory ProbabilityTheory

variable {Ω : Type*} [MeasurableSpace Ω] {P : Measure Ω} {n k l : ℕ}

/-- A linear function of a Gaussian vector, with independent noise, is jointly Gaussian with everything that the vector is jointly Gaussian with. -/
theorem Jointly.through {X : Ω → Fin l → ℝ} {U : Ω → Fin n → ℝ} {g : Normal l} {h : Normal n} {C : Matrix (Fin l) (Fin n) ℝ}
    (H : Jointly P X U g h C) {N : Ω → Fin k → ℝ} {V : Matrix (Fin k) (Fin k) ℝ} (hN : IsNormal P N ⟨0, V⟩) (mN : Measurable N)
    (hi : IndepFun (fun ω => (X ω, U ω)) N P) (W : Matrix (Fin k) (Fin n) ℝ) (c : Fin k → ℝ) :
    Jointly P X (fun ω => W *ᵥ U ω + c + N ω) g ⟨W *ᵥ h.mean + c, W * h.var * Wᵀ + V⟩ (C * Wᵀ) := by
  have hp := H.gaussian.isProbabilityMeasure
  have hU : IsNormal P U h := ⟨⟨H.memZ, H.meanZ, H.covZ⟩, H.gaussian.snd⟩
  have hiU : IndepFun U N P := hi.comp (φ := Prod.snd) measurable_snd measurable_id
  have hA := hU.affine W c
  have hiA : IndepFun (fun ω => W *ᵥ U ω + c) N P := hiU.comp (φ := fun u => W *ᵥ u + c)
    ((Continuous.matrix_mulVec continuous_const continuous_id).add continuous_const).measurable measurable_id
  have hY := hA.add hN hiA
  have hg := hi.hasGaussianLaw H.gaussian hN.gaussian
  let L : (((Fin l → ℝ) × (Fin n → ℝ)) × (Fin k → ℝ)) →ₗ[ℝ] (Fin l → ℝ) × (Fin k → ℝ) :=
    { toFun x := (x.1.1, W *ᵥ x.1.2 + x.2)
      map_add' x y := by ext <;> simp [mulVec_add]; ring
      map_smul' m x := by ext <;> simp [mulVec_smul] }
  have hL := hg.map (LinearMap.toContinuousLinearMap L)
  have eL : (fun ω => (X ω, W *ᵥ U ω + c + N ω)) = (fun x => x + ((0 : Fin l → ℝ), c)) ∘ ((LinearMap.toContinuousLinearMap L) ∘ fun ω => ((X ω, U ω), N ω)) := by
    funext ω
    show _ = ((X ω : Fin l → ℝ) + 0, W *ᵥ U ω + N ω + c)
    rw [add_zero]
    congr 1
    abel
  have hgL : HasGaussianLaw (fun ω => (X ω, W *ᵥ U ω + c + N ω)) P := by
    refine ⟨?_⟩
    rw [eL, ← AEMeasurable.map_map_of_aemeasurable (by fun_prop) hL.aemeasurable]
    have := hL.isGaussian_map
    infer_instance
  refine ⟨hgL, H.measX, ?_, H.meanX, fun b => ?_, H.covX, fun b b' => hY.cov b b', fun a b => ?_⟩
  · exact ((((Continuous.matrix_mulVec continuous_const continuous_id).add continuous_const).measurable (f := fun u => W *ᵥ u + c)).comp H.measZ).add mN
  · rw [hY.mean b]
    simp
  · have hc : cov[fun ω => X ω a, fun ω => N ω b; P] = 0 :=
      IndepFun.covariance_eq_zero (hi.comp (φ := fun x : (Fin l → ℝ) × (Fin n → ℝ) => x.1 a) (by fun_prop) (measurable_pi_apply b)) (H.memX a)
        (hN.memLp b)
    show cov[fun ω => X ω a, fun ω => (W *ᵥ U ω + c) b + N ω b; P] = _
    have e1 := covariance_add_right (X := fun ω => X ω a) (H.memX a) (hA.memLp b) (hN.memLp b)
    have e2 : cov[fun ω => X ω a, fun ω => (W *ᵥ U ω + c) b; P] = (C * Wᵀ) a b := by
      have : (fun ω => (W *ᵥ U ω + c) b) = fun ω => (∑ i, W b i * U ω i) + c b := rfl
      rw [this]
      rw [covariance_add_const_right (integrable_finsetSum _ fun i _ => ((H.memZ i).integrable (by norm_num)).const_mul _)]
      have e3 := covariance_fun_sum_right' (s := Finset.univ) (X := fun (i : Fin n) ω => W b i * U ω i) (Y := fun ω => X ω a)
        (fun i _ => (H.memZ i).const_mul _) (H.memX a)
      rw [e3, mul_apply]
      refine Finset.sum_congr rfl fun i _ => ?_
      rw [covariance_const_mul_right, H.cross, mul_comm]
      rfl
    exact e1.trans (by rw [e2, hc, add_zero])

section
variable {Kz : Matrix (Fin n) (Fin n) ℝ} {N : Matrix (Fin k) (Fin k) ℝ}

/-- `A⁻¹ K_zx N⁻¹ = K_z⁻¹ K_zx (Q + N)⁻¹` -/
theorem push_through (hK : Kz.PosDef) (hN : N.PosDef) (Kzx : Matrix (Fin n) (Fin k) ℝ) :
    (Kz + Kzx * N⁻¹ * Kzxᵀ)⁻¹ * (Kzx * N⁻¹) = Kz⁻¹ * Kzx * (nystrom Kz Kzx + N)⁻¹ := by
  have hA : IsUnit (Kz + Kzx * N⁻¹ * Kzxᵀ).det := (addA_posDef hK hN Kzx).isUnit.map detMonoidHom
  have hk : IsUnit Kz.det := hK.isUnit.map detMonoidHom
  rw [nystrom_inv hK hN]
  have e : Kzx * N⁻¹ * Kzxᵀ = (Kz + Kzx * N⁻¹ * Kzxᵀ) - Kz := by abel
  generalize hAA : Kz + Kzx * N⁻¹ * Kzxᵀ = A at *
  have : Kz⁻¹ * Kzx * (N⁻¹ - N⁻¹ * Kzxᵀ * A⁻¹ * Kzx * N⁻¹) = Kz⁻¹ * (Kzx * N⁻¹) - Kz⁻¹ * (Kzx * N⁻¹ * Kzxᵀ) * A⁻¹ * (Kzx * N⁻¹) := by
    simp only [Matrix.mul_sub, Matrix.mul_assoc]
  rw [this, e, Matrix.mul_sub, nonsing_inv_mul _ hk, Matrix.sub_mul, Matrix.sub_mul, Matrix.one_mul, Matrix.mul_assoc Kz⁻¹ A, mul_nonsing_inv _ hA,
    Matrix.mul_one, sub_sub_cancel]

/-- `K_z⁻¹ - A⁻¹ = K_z⁻¹ K_zx (Q + N)⁻¹ K_xz K_z⁻¹` -/
theorem inv_sub_inv (hK : Kz.PosDef) (hN : N.PosDef) (Kzx : Matrix (Fin n) (Fin k) ℝ) :
    Kz⁻¹ - (Kz + Kzx * N⁻¹ * Kzxᵀ)⁻¹ = Kz⁻¹ * Kzx * (nystrom Kz Kzx + N)⁻¹ * (Kzxᵀ * Kz⁻¹) := by
  have hA : IsUnit (Kz + Kzx * N⁻¹ * Kzxᵀ).det := (addA_posDef hK hN Kzx).isUnit.map detMonoidHom
  have hk : IsUnit Kz.det := hK.isUnit.map detMonoidHom
  rw [← push_through hK hN, Matrix.mul_assoc _ (Kzx * N⁻¹), ← Matrix.mul_assoc (Kzx * N⁻¹)]
  have e : Kzx * N⁻¹ * Kzxᵀ = (Kz + Kzx * N⁻¹ * Kzxᵀ) - Kz := by abel
  generalize hAA : Kz + Kzx * N⁻¹ * Kzxᵀ = A at *
  rw [e, Matrix.sub_mul, mul_nonsing_inv _ hk, Matrix.mul_sub, ← Matrix.mul_assoc, nonsing_inv_mul _ hA, Matrix.one_mul, Matrix.mul_one]

end

/-- The conditional normal given a linear function of the inducing variables with diagonal noise. -/
theorem given_sparse {g : Normal l} {mz : Fin n → ℝ} {mx : Fin k → ℝ} {Kz : Matrix (Fin n) (Fin n) ℝ} {Kzx : Matrix (Fin n) (Fin k) ℝ} {μ : Method}
    {kx noise : Fin k → ℝ} (hK : Kz.PosDef) (hn : ∀ j, 0 < sparseNoise μ Kz Kzx kx noise j) (C : Matrix (Fin l) (Fin n) ℝ) (y : Fin k → ℝ) :
    g.given ⟨(Kzxᵀ * Kz⁻¹) *ᵥ mz + (mx - (Kzxᵀ * Kz⁻¹) *ᵥ mz), Kzxᵀ * Kz⁻¹ * Kz * (Kzxᵀ * Kz⁻¹)ᵀ + diagonal (sparseNoise μ Kz Kzx kx noise)⟩
      (C * (Kzxᵀ * Kz⁻¹)ᵀ) y =
    ⟨g.mean + C *ᵥ sparseWeights μ Kz Kzx kx noise (y - mx), g.var - C * Kz⁻¹ * Cᵀ + C * (sparseA μ Kz Kzx kx noise)⁻¹ * Cᵀ⟩ := by
  have hN : (diagonal (sparseNoise μ Kz Kzx kx noise)).PosDef := posDef_diagonal_iff.2 hn
  have hk : IsUnit Kz.det := hK.isUnit.map detMonoidHom
  have e1 : (Kzxᵀ * Kz⁻¹)ᵀ = Kz⁻¹ * Kzx := by
    rw [transpose_mul, transpose_nonsing_inv, symm_of_posDef hK, transpose_transpose]
  have e2 : Kzxᵀ * Kz⁻¹ * Kz * (Kzxᵀ * Kz⁻¹)ᵀ = nystrom Kz Kzx := by
    rw [e1, Matrix.mul_assoc _ _ Kz, nonsing_inv_mul _ hk, Matrix.mul_one, ← Matrix.mul_assoc]
    rfl
  unfold Normal.given sparseWeights sparseA
  rw [e2, e1]
  simp only
  congr 1
  · rw [add_sub_cancel, mulVec_mulVec, mulVec_mulVec, Matrix.mul_assoc C, Matrix.mul_assoc C, push_through hK hN]
  · rw [sub_add, ← Matrix.sub_mul, ← Matrix.mul_sub, inv_sub_inv hK hN, transpose_mul, transpose_mul, transpose_nonsing_inv, symm_of_posDef hK]
    simp only [Matrix.mul_assoc]

end Stheno
