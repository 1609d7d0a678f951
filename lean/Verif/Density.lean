import Mathlib.MeasureTheory.Measure.Lebesgue.Basic
import Verif.NumericsSpec
import Verif.Gaussian

/-!
# The density of Gaussian vectors

`Normal.logpdfFull` is the logarithm of the density of every Gaussian vector with the mean and variance of the normal.
-/

namespace Stheno

open Matrix MeasureTheory ProbabilityTheory
open scoped ENNReal

/-- Integrals of products over several independent variables. -/
theorem lintegral_pi_prod {E : Type*} [MeasurableSpace E] : ∀ {n : ℕ} (μ : Fin n → Measure E) [∀ i, SigmaFinite (μ i)] (f : Fin n → E → ℝ≥0∞) (_ : ∀ i, Measurable (f i)),
    ∫⁻ x, ∏ i, f i (x i) ∂(Measure.pi μ) = ∏ i, ∫⁻ t, f i t ∂(μ i)
  | 0, μ, _, f, _ => by simp
  | n + 1, μ, _, f, hf => by
    have hm : Measurable fun y : Fin n → E => ∏ i, f (Fin.succ i) (y i) :=
      Finset.measurable_prod _ fun i _ => (hf _).comp (measurable_pi_apply i)
    have hp : Measurable fun x : Fin (n + 1) → E => ∏ i, f i (x i) :=
      Finset.measurable_prod _ fun i _ => (hf i).comp (measurable_pi_apply i)
    rw [← ((measurePreserving_piFinSuccAbove μ 0).symm).lintegral_comp hp]
    simp_rw [MeasurableEquiv.piFinSuccAbove_symm_apply, Fin.insertNthEquiv, Fin.prod_univ_succ, Fin.insertNth_zero, Equiv.coe_fn_mk,
      Fin.cons_succ, Fin.zero_succAbove, cast_eq, Fin.cons_zero]
    rw [← lintegral_pi_prod (fun i => μ (Fin.succ i)) (fun i => f (Fin.succ i)) fun i => hf _]
    exact lintegral_prod_mul (hf 0).aemeasurable hm.aemeasurable

/-- The density of independent variables is the product of the densities. -/
theorem pi_withDensity {E : Type*} [MeasureSpace E] [SigmaFinite (volume : Measure E)] {n : ℕ} (f : Fin n → E → ℝ≥0∞)
    (hf : ∀ i, Measurable (f i)) [∀ i, SigmaFinite ((volume : Measure E).withDensity (f i))] :
    Measure.pi (fun i => (volume : Measure E).withDensity (f i)) = (volume : Measure (Fin n → E)).withDensity fun x => ∏ i, f i (x i) := by
  refine Measure.pi_eq fun s hs => ?_
  rw [withDensity_apply _ (MeasurableSet.univ_pi hs), volume_pi, Measure.restrict_pi_pi, lintegral_pi_prod _ f hf]
  exact Finset.prod_congr rfl fun i _ => (withDensity_apply _ (hs i)).symm

variable {n : ℕ}

/-- The density of independent standard normal variables. -/
theorem pi_gaussianReal : Measure.pi (fun _ : Fin n => gaussianReal 0 1) = (volume : Measure (Fin n → ℝ)).withDensity fun x =>
    ENNReal.ofReal (Real.exp (-(n * Real.log (2 * Real.pi) + x ⬝ᵥ x) / 2)) := by
  have h1 : gaussianReal 0 1 = (volume : Measure ℝ).withDensity (gaussianPDF 0 1) := gaussianReal_of_var_ne_zero 0 one_ne_zero
  have : SigmaFinite ((volume : Measure ℝ).withDensity (gaussianPDF 0 1)) := by rw [← h1]; infer_instance
  rw [h1, pi_withDensity (n := n) (fun _ => gaussianPDF 0 1) fun _ => measurable_gaussianPDF 0 1]
  congr 1
  funext x
  simp only [gaussianPDF]
  rw [← ENNReal.ofReal_prod_of_nonneg fun i _ => gaussianPDFReal_nonneg 0 1 _]
  congr 1
  have h2 : (0 : ℝ) < 2 * Real.pi := by positivity
  have e : ∀ t : ℝ, gaussianPDFReal 0 1 t = Real.exp (-(Real.log (2 * Real.pi) + t * t) / 2) := fun t => by
    simp only [gaussianPDFReal, NNReal.coe_one, mul_one, sub_zero]
    rw [Real.sqrt_eq_rpow, ← Real.rpow_neg h2.le, Real.rpow_def_of_pos h2, ← Real.exp_add]
    congr 1
    ring
  simp only [e]
  rw [← Real.exp_sum]
  congr 1
  simp only [dotProduct, neg_div, add_div, Finset.sum_neg_distrib, Finset.sum_add_distrib, Finset.sum_div]
  simp
  ring

/-- Affine images of measures with a density. -/
theorem map_affine_withDensity (L : Matrix (Fin n) (Fin n) ℝ) (hL : L.det ≠ 0) (m : Fin n → ℝ) (f φ : (Fin n → ℝ) → ℝ≥0∞)
    (hφ : Measurable φ) (h : ∀ z, ENNReal.ofReal |L.det| * φ (L *ᵥ z + m) = f z) :
    ((volume : Measure (Fin n → ℝ)).withDensity f).map (fun z => L *ᵥ z + m) = (volume : Measure (Fin n → ℝ)).withDensity φ := by
  have hT : Measurable fun z : Fin n → ℝ => L *ᵥ z + m := Continuous.measurable (by fun_prop)
  have hv : (volume : Measure (Fin n → ℝ)).map (fun z => L *ᵥ z + m) = ENNReal.ofReal |L.det|⁻¹ • (volume : Measure (Fin n → ℝ)) := by
    have h1 := Real.map_matrix_volume_pi_eq_smul_volume_pi hL
    have h2 : (fun z : Fin n → ℝ => L *ᵥ z + m) = (fun z => z + m) ∘ (toLin' L) := rfl
    rw [h2, ← Measure.map_map (by fun_prop) (LinearMap.continuous_of_finiteDimensional _).measurable, h1, Measure.map_smul,
      (measurePreserving_add_right (volume : Measure (Fin n → ℝ)) m).map_eq, abs_inv]
  have hd : 0 < |L.det| := abs_pos.2 hL
  ext S hS
  rw [Measure.map_apply hT hS, withDensity_apply _ (hT hS), withDensity_apply _ hS]
  have e : (volume : Measure (Fin n → ℝ)) = ENNReal.ofReal |L.det| • (volume : Measure (Fin n → ℝ)).map (fun z => L *ᵥ z + m) := by
    rw [hv, smul_smul, ← ENNReal.ofReal_mul hd.le, mul_inv_cancel₀ hd.ne', ENNReal.ofReal_one, one_smul]
  conv_rhs => rw [e]
  have hc : Measurable fun z => φ (L *ᵥ z + m) := hφ.comp hT
  rw [Measure.restrict_smul, lintegral_smul_measure, setLIntegral_map hS hφ hT, smul_eq_mul, ← lintegral_const_mul _ hc]
  exact lintegral_congr fun z => (h z).symm

variable {Ω : Type*} [MeasurableSpace Ω] {P : Measure Ω} {X : Ω → Fin n → ℝ} {g : Normal n}

theorem IsNormal.map_law (hX : IsNormal P X g) : P.map X = g.law.map (fun x => x.ofLp) := by
  have hm : AEMeasurable (fun ω => WithLp.toLp 2 (X ω)) P := (by fun_prop : Measurable (WithLp.toLp 2)).comp_aemeasurable hX.gaussian.aemeasurable
  rw [← hX.map_eq, AEMeasurable.map_map_of_aemeasurable (by fun_prop) hm]
  rfl

/-- The distribution of a Gaussian vector is determined by its normal. -/
theorem IsNormal.map_unique {Ω' : Type*} [MeasurableSpace Ω'] {Q : Measure Ω'} {Y : Ω' → Fin n → ℝ} (hX : IsNormal P X g) (hY : IsNormal Q Y g) :
    P.map X = Q.map Y := by
  rw [hX.map_law, hY.map_law]

/-- Independent standard normal numbers. -/
theorem isNormal_std : IsNormal (Measure.pi fun _ : Fin n => gaussianReal 0 1) (fun z => z) ⟨0, 1⟩ := by
  have hn : ∀ i : Fin n, HasLaw (fun z : Fin n → ℝ => z i) (gaussianReal 0 1) (Measure.pi fun _ : Fin n => gaussianReal 0 1) :=
    fun i => (measurePreserving_eval (fun _ : Fin n => gaussianReal 0 1) i).hasLaw
  have hi : iIndepFun (fun (i : Fin n) (z : Fin n → ℝ) => z i) (Measure.pi fun _ : Fin n => gaussianReal 0 1) :=
    iIndepFun_pi (X := fun _ => id) fun _ => aemeasurable_id
  have hG : ∀ i : Fin n, HasGaussianLaw (fun z : Fin n → ℝ => z i) (Measure.pi fun _ : Fin n => gaussianReal 0 1) :=
    fun i => (hn i).hasGaussianLaw
  refine ⟨⟨fun i => (hG i).memLp_two, fun i => ?_, fun i j => ?_⟩, hi.hasGaussianLaw hG⟩
  · rw [(hn i).integral_eq, integral_id_gaussianReal]
    rfl
  · by_cases h : i = j
    · rw [h, covariance_self (hn j).aemeasurable, (hn j).variance_eq, variance_id_gaussianReal]
      simp
    · rw [(hi.indepFun h).covariance_eq_zero (hG i).memLp_two (hG j).memLp_two]
      simp [h]

/-- `Normal.logpdfFull` is the logarithm of a density. -/
theorem IsNormal.withDensity (hX : IsNormal P X g) (hp : g.var.PosDef) :
    P.map X = (volume : Measure (Fin n → ℝ)).withDensity fun x => ENNReal.ofReal (Real.exp (g.logpdfFull x)) := by
  have hc := chol_spec hp
  have hd : 0 < (chol g.var).det := by
    rw [Matrix.det_of_isLowerTriangular _ fun i j hij => hc.lower i j hij]
    exact Finset.prod_pos fun i _ => hc.pos i
  have hY : IsNormal (Measure.pi fun _ : Fin n => gaussianReal 0 1) (fun z => chol g.var *ᵥ z + g.mean) g := by
    have := isNormal_std.affine (chol g.var) g.mean
    have e : g = ⟨chol g.var *ᵥ 0 + g.mean, chol g.var * 1 * (chol g.var)ᵀ⟩ := by
      rw [Matrix.mul_one, hc.mul, Matrix.mulVec_zero, zero_add]
    rw [← e] at this
    exact this
  rw [hX.map_unique hY, pi_gaussianReal]
  refine map_affine_withDensity _ hd.ne' _ _ _ ?_ fun z => ?_
  · refine ENNReal.measurable_ofReal.comp (Real.measurable_exp.comp (Continuous.measurable ?_))
    unfold Normal.logpdfFull
    fun_prop
  · rw [← ENNReal.ofReal_mul (abs_nonneg _)]
    congr 1
    have h1 : Real.log g.var.det = 2 * Real.log (chol g.var).det := by
      conv_lhs => rw [← hc.mul]
      rw [Matrix.det_mul, Matrix.det_transpose, Real.log_mul hd.ne' hd.ne']
      ring
    have h2 : (chol g.var *ᵥ z) ⬝ᵥ (g.var⁻¹ *ᵥ (chol g.var *ᵥ z)) = z ⬝ᵥ z := by
      rw [← chol_inv hp, ← Matrix.mulVec_mulVec, Matrix.mulVec_mulVec _ _ (chol g.var), Matrix.nonsing_inv_mul _ (chol_unit hp), Matrix.one_mulVec,
        Matrix.dotProduct_mulVec, Matrix.vecMul_transpose, Matrix.mulVec_mulVec, Matrix.nonsing_inv_mul _ (chol_unit hp), Matrix.one_mulVec]
    unfold Normal.logpdfFull
    rw [add_sub_cancel_right, h2, h1, abs_of_pos hd]
    conv_lhs => rw [← Real.exp_log hd]
    rw [← Real.exp_add, Real.exp_log hd]
    congr 1
    ring

end Stheno
