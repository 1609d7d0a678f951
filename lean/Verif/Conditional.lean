import Mathlib.Probability.Kernel.CondDistrib
import Mathlib.Probability.ConditionalExpectation
import Mathlib.MeasureTheory.Function.ConditionalExpectation.PullOut
import Mathlib.Probability.Distributions.Gaussian.IsGaussianProcess.Basic
import Verif.Gaussian

/-!
# Conditional distributions of Gaussian vectors

Nothing here depends on how the code computes.
-/

namespace Stheno

open Matrix MeasureTheory ProbabilityTheory

variable {Ω : Type*} [MeasurableSpace Ω] {P : Measure Ω} {n k : ℕ}

/-- `X` and `Z` are jointly Gaussian with the given means, covariances and cross-covariances. -/
structure Jointly (P : Measure Ω) (X : Ω → Fin k → ℝ) (Z : Ω → Fin n → ℝ) (g : Normal k) (h : Normal n) (C : Matrix (Fin k) (Fin n) ℝ) : Prop where
  gaussian : HasGaussianLaw (fun ω => (X ω, Z ω)) P
  measX : Measurable X
  measZ : Measurable Z
  meanX : ∀ a, ∫ ω, X ω a ∂P = g.mean a
  meanZ : ∀ b, ∫ ω, Z ω b ∂P = h.mean b
  covX : ∀ a a', cov[fun ω => X ω a, fun ω => X ω a'; P] = g.var a a'
  covZ : ∀ b b', cov[fun ω => Z ω b, fun ω => Z ω b'; P] = h.var b b'
  cross : ∀ a b, cov[fun ω => X ω a, fun ω => Z ω b; P] = C a b

/-- The conditional normal. -/
noncomputable def Normal.given (g : Normal k) (h : Normal n) (C : Matrix (Fin k) (Fin n) ℝ) (z : Fin n → ℝ) : Normal k :=
  ⟨g.mean + (C * h.var⁻¹) *ᵥ (z - h.mean), g.var - C * h.var⁻¹ * Cᵀ⟩

variable {X : Ω → Fin k → ℝ} {Z : Ω → Fin n → ℝ} {g : Normal k} {h : Normal n} {C : Matrix (Fin k) (Fin n) ℝ}

theorem Jointly.memX (H : Jointly P X Z g h C) (a : Fin k) : MemLp (fun ω => X ω a) 2 P := (H.gaussian.fst.eval a).memLp_two

theorem Jointly.memZ (H : Jointly P X Z g h C) (b : Fin n) : MemLp (fun ω => Z ω b) 2 P := (H.gaussian.snd.eval b).memLp_two

/-- What `Z` does not explain. -/
noncomputable def residual (X : Ω → Fin k → ℝ) (Z : Ω → Fin n → ℝ) (g : Normal k) (h : Normal n) (C : Matrix (Fin k) (Fin n) ℝ) (ω : Ω) : Fin k → ℝ :=
  X ω - (g.given h C (Z ω)).mean

omit [MeasurableSpace Ω] in
theorem residual_eq : residual X Z g h C = fun ω => X ω - (C * h.var⁻¹) *ᵥ Z ω + ((C * h.var⁻¹) *ᵥ h.mean - g.mean) := by
  funext ω
  show X ω - (g.mean + (C * h.var⁻¹) *ᵥ (Z ω - h.mean)) = _
  rw [mulVec_sub]
  abel

theorem Jointly.measR (H : Jointly P X Z g h C) : Measurable (residual X Z g h C) := by
  rw [residual_eq]
  refine (H.measX.sub ?_).add_const _
  exact (Continuous.matrix_mulVec continuous_const continuous_id).measurable.comp H.measZ

theorem Jointly.residual_gaussian (H : Jointly P X Z g h C) : HasGaussianLaw (fun ω => (residual X Z g h C ω, Z ω)) P := by
  have hp := H.gaussian.isProbabilityMeasure
  let L : ((Fin k → ℝ) × (Fin n → ℝ)) →ₗ[ℝ] (Fin k → ℝ) × (Fin n → ℝ) :=
    ((LinearMap.fst ℝ _ _) - (mulVecLin (C * h.var⁻¹)) ∘ₗ (LinearMap.snd ℝ _ _)).prod (LinearMap.snd ℝ _ _)
  have hL := H.gaussian.map (LinearMap.toContinuousLinearMap L)
  let c : (Fin k → ℝ) × (Fin n → ℝ) := ((C * h.var⁻¹) *ᵥ h.mean - g.mean, 0)
  have hc : (fun ω => (residual X Z g h C ω, Z ω)) = (fun x => x + c) ∘ ((LinearMap.toContinuousLinearMap L) ∘ fun ω => (X ω, Z ω)) := by
    funext ω
    rw [residual_eq]
    refine Prod.ext rfl ?_
    show Z ω = Z ω + 0
    rw [add_zero]
  refine ⟨?_⟩
  rw [hc, ← AEMeasurable.map_map_of_aemeasurable (by fun_prop) hL.aemeasurable]
  have := hL.isGaussian_map
  infer_instance

/-- The covariance of a combination. -/
theorem cov_mulVec [IsProbabilityMeasure P] {Y : Ω → ℝ} (hY : MemLp Y 2 P) (hZ : ∀ b, MemLp (fun ω => Z ω b) 2 P) (G : Matrix (Fin k) (Fin n) ℝ) (a : Fin k) :
    cov[fun ω => (G *ᵥ Z ω) a, Y; P] = ∑ b, G a b * cov[fun ω => Z ω b, Y; P] := by
  show cov[fun ω => ∑ b, G a b * Z ω b, Y; P] = _
  rw [covariance_fun_sum_left (fun b => (hZ b).const_mul _) hY]
  exact Finset.sum_congr rfl fun b _ => covariance_const_mul_left _

theorem mem_mulVec (hZ : ∀ b, MemLp (fun ω => Z ω b) 2 P) (G : Matrix (Fin k) (Fin n) ℝ) (a : Fin k) : MemLp (fun ω => (G *ᵥ Z ω) a) 2 P :=
  memLp_finsetSum Finset.univ (f := fun b ω => G a b * Z ω b) fun b _ => (hZ b).const_mul _

theorem Jointly.cov_residual (H : Jointly P X Z g h C) {Y : Ω → ℝ} (hY : MemLp Y 2 P) (a : Fin k) :
    cov[fun ω => residual X Z g h C ω a, Y; P] = cov[fun ω => X ω a, Y; P] - ∑ b, (C * h.var⁻¹) a b * cov[fun ω => Z ω b, Y; P] := by
  have := H.gaussian.isProbabilityMeasure
  have h1 : MemLp (fun ω => X ω a - ((C * h.var⁻¹) *ᵥ Z ω) a) 2 P := (H.memX a).sub (mem_mulVec H.memZ _ a)
  rw [residual_eq]
  show cov[fun ω => (X ω a - ((C * h.var⁻¹) *ᵥ Z ω) a) + ((C * h.var⁻¹) *ᵥ h.mean - g.mean) a, Y; P] = _
  rw [covariance_add_const_left (h1.integrable (by norm_num)), covariance_fun_sub_left (H.memX a) (mem_mulVec H.memZ _ a) hY,
    cov_mulVec hY H.memZ]

theorem Jointly.memR (H : Jointly P X Z g h C) (a : Fin k) : MemLp (fun ω => residual X Z g h C ω a) 2 P :=
  (H.residual_gaussian.fst.eval a).memLp_two

theorem Jointly.residual_uncorrelated (H : Jointly P X Z g h C) (hS : IsUnit h.var.det) (a : Fin k) (b : Fin n) :
    cov[fun ω => residual X Z g h C ω a, fun ω => Z ω b; P] = 0 := by
  rw [H.cov_residual (H.memZ b), H.cross]
  simp only [H.covZ]
  have := congrFun (congrFun (by rw [Matrix.mul_assoc, nonsing_inv_mul _ hS, Matrix.mul_one] : C * h.var⁻¹ * h.var = C) a) b
  rw [mul_apply] at this
  rw [this, sub_self]

/-- The residual is independent of `Z`. -/
theorem Jointly.residual_indep (H : Jointly P X Z g h C) (hS : IsUnit h.var.det) : IndepFun (residual X Z g h C) Z P :=
  H.residual_gaussian.indepFun_of_covariance_eval (X := fun a ω => residual X Z g h C ω a) (Y := fun b ω => Z ω b)
    (H.residual_uncorrelated hS)

/-- The distribution of the residual. -/
theorem Jointly.residual_normal (H : Jointly P X Z g h C) (hS : IsUnit h.var.det) :
    IsNormal P (residual X Z g h C) ⟨0, g.var - C * h.var⁻¹ * Cᵀ⟩ := by
  have := H.gaussian.isProbabilityMeasure
  refine ⟨⟨H.memR, fun a => ?_, fun a a' => ?_⟩, H.residual_gaussian.fst⟩
  · have h1 : Integrable (fun ω => X ω a) P := (H.memX a).integrable (by norm_num)
    have h2 : Integrable (fun ω => ((C * h.var⁻¹) *ᵥ Z ω) a) P := (mem_mulVec H.memZ _ a).integrable (by norm_num)
    rw [residual_eq]
    show ∫ ω, (X ω a - ((C * h.var⁻¹) *ᵥ Z ω) a) + ((C * h.var⁻¹) *ᵥ h.mean - g.mean) a ∂P = 0
    have h3 : Integrable (fun ω => X ω a - ((C * h.var⁻¹) *ᵥ Z ω) a) P := h1.sub h2
    have h4 : ∫ ω, ((C * h.var⁻¹) *ᵥ Z ω) a ∂P = ((C * h.var⁻¹) *ᵥ h.mean) a := by
      show ∫ ω, ∑ b, (C * h.var⁻¹) a b * Z ω b ∂P = _
      rw [integral_finsetSum _ fun b _ => ((H.memZ b).const_mul _).integrable (by norm_num)]
      simp only [integral_const_mul, H.meanZ]
      rfl
    rw [integral_add h3 (integrable_const _), integral_sub h1 h2, H.meanX, h4]
    simp
  · rw [H.cov_residual (H.memR a'), covariance_comm, H.cov_residual (H.memX a)]
    have h0 : ∀ b, cov[fun ω => Z ω b, fun ω => residual X Z g h C ω a'; P] = 0 := fun b => by
      rw [covariance_comm, H.residual_uncorrelated hS]
    simp only [h0, mul_zero, Finset.sum_const_zero, sub_zero]
    rw [H.covX, ← H.covX, covariance_comm, H.covX]
    have h1 : ∀ b, cov[fun ω => Z ω b, fun ω => X ω a; P] = C a b := fun b => by rw [covariance_comm, H.cross]
    simp only [h1]
    show _ = g.var a a' - (C * h.var⁻¹ * Cᵀ) a a'
    have hs : h.varᵀ = h.var := by
      ext i j
      show h.var j i = h.var i j
      rw [← H.covZ, ← H.covZ, covariance_comm]
    have h2 : (C * h.var⁻¹ * Cᵀ) a a' = (C * h.var⁻¹ * Cᵀ) a' a := by
      have : (C * h.var⁻¹ * Cᵀ)ᵀ = C * h.var⁻¹ * Cᵀ := by
        rw [transpose_mul, transpose_mul, transpose_transpose, transpose_nonsing_inv, hs, Matrix.mul_assoc]
      conv_lhs => rw [← this]
      rfl
    rw [h2, mul_apply]
    rfl

/-- Given `Z`, the distribution of `X` is the conditional normal. -/
theorem Jointly.condDistrib (H : Jointly P X Z g h C) (hS : IsUnit h.var.det) [IsFiniteMeasure P] :
    ∀ᵐ z ∂P.map Z, ProbabilityTheory.condDistrib (fun ω => WithLp.toLp 2 (X ω)) Z P z = (g.given h C z).law := by
  have := H.gaussian.isProbabilityMeasure
  let f : (Fin n → ℝ) × (Fin k → ℝ) → EuclideanSpace ℝ (Fin k) := fun zr => WithLp.toLp 2 ((g.given h C zr.1).mean + zr.2)
  have hf : Measurable f := by
    have hc : Continuous f := by
      refine (PiLp.continuous_toLp 2 _).comp (Continuous.add (Continuous.add continuous_const ?_) continuous_snd)
      exact Continuous.matrix_mulVec continuous_const (continuous_fst.sub continuous_const)
    exact hc.measurable
  have hPR := Measure.isProbabilityMeasure_map (μ := P) H.measR.aemeasurable
  have hPZ := Measure.isProbabilityMeasure_map (μ := P) H.measZ.aemeasurable
  let κ : Kernel (Fin n → ℝ) (EuclideanSpace ℝ (Fin k)) := (Kernel.id ×ₖ Kernel.const _ (P.map (residual X Z g h C))).map f
  have hκ : ∀ z, κ z = (g.given h C z).law := by
    intro z
    have hz : κ z = P.map (fun ω => f (z, residual X Z g h C ω)) := by
      show ((Kernel.id ×ₖ Kernel.const _ (P.map (residual X Z g h C))).map f) z = _
      rw [Kernel.map_apply _ hf, Kernel.prod_apply, Kernel.id_apply, Kernel.const_apply, Measure.dirac_prod,
        Measure.map_map hf (by fun_prop), Measure.map_map (hf.comp (by fun_prop)) H.measR]
      rfl
    have hN := (H.residual_normal hS).affine 1 (g.given h C z).mean
    rw [hz, ← (show (⟨(1 : Matrix (Fin k) (Fin k) ℝ) *ᵥ (0 : Fin k → ℝ) + (g.given h C z).mean, 1 * (g.var - C * h.var⁻¹ * Cᵀ) * 1ᵀ⟩ : Normal k) =
      g.given h C z by rw [mulVec_zero, zero_add, Matrix.one_mul, transpose_one, Matrix.mul_one]; rfl), ← hN.map_eq]
    refine congrArg (P.map ·) ?_
    funext ω
    show WithLp.toLp 2 ((g.given h C z).mean + residual X Z g h C ω) = _
    rw [one_mulVec, add_comm]
  have hκm : IsMarkovKernel κ := Kernel.IsMarkovKernel.map _ hf
  have hXf : (fun ω => WithLp.toLp 2 (X ω)) = fun ω => f (Z ω, residual X Z g h C ω) := by
    funext ω
    show _ = WithLp.toLp 2 ((g.given h C (Z ω)).mean + (X ω - (g.given h C (Z ω)).mean))
    rw [add_sub_cancel]
  have hmX : Measurable (fun ω => WithLp.toLp 2 (X ω)) := by
    rw [hXf]; exact hf.comp (H.measZ.prodMk H.measR)
  have key := condDistrib_ae_eq_of_measure_eq_compProd (μ := P) Z (Y := fun ω => WithLp.toLp 2 (X ω)) hmX.aemeasurable (κ := κ) (by
    have hi := (indepFun_iff_map_prod_eq_prod_map_map H.measZ.aemeasurable H.measR.aemeasurable).1 (H.residual_indep hS).symm
    have e1 : P.map (fun ω => (Z ω, WithLp.toLp 2 (X ω))) = (P.map fun ω => (Z ω, residual X Z g h C ω)).map fun zr => (zr.1, f zr) := by
      rw [Measure.map_map (measurable_fst.prodMk hf) (H.measZ.prodMk H.measR)]
      refine congrArg (P.map ·) (funext fun ω => Prod.ext rfl (congrFun hXf ω))
    rw [e1, hi]
    ext s hs
    rw [Measure.map_apply (measurable_fst.prodMk hf) hs, Measure.compProd_apply hs,
      Measure.prod_apply ((measurable_fst.prodMk hf) hs)]
    refine lintegral_congr fun z => ?_
    show _ = ((Kernel.id ×ₖ Kernel.const _ (P.map (residual X Z g h C))).map f) z (Prod.mk z ⁻¹' s)
    rw [Kernel.map_apply _ hf, Kernel.prod_apply, Kernel.id_apply, Kernel.const_apply, Measure.dirac_prod,
      Measure.map_map hf (by fun_prop), Measure.map_apply (hf.comp (by fun_prop)) (measurable_prodMk_left hs)]
    rfl)
  filter_upwards [key] with z hz
  rw [hz, hκ]

/-- The conditional expectation. -/
theorem Jointly.condExp (H : Jointly P X Z g h C) (hS : IsUnit h.var.det) (a : Fin k) :
    P[fun ω => X ω a | MeasurableSpace.comap Z inferInstance] =ᵐ[P] fun ω => (g.given h C (Z ω)).mean a := by
  have := H.gaussian.isProbabilityMeasure
  have hle : MeasurableSpace.comap Z inferInstance ≤ (inferInstance : MeasurableSpace Ω) := H.measZ.comap_le
  have hc : Continuous fun z => (g.given h C z).mean a := by
    refine (continuous_apply a).comp (Continuous.add continuous_const ?_)
    exact Continuous.matrix_mulVec continuous_const (continuous_id.sub continuous_const)
  have hm : StronglyMeasurable[MeasurableSpace.comap Z inferInstance] fun ω => (g.given h C (Z ω)).mean a :=
    hc.stronglyMeasurable.comp_measurable (comap_measurable Z)
  have hR : StronglyMeasurable[MeasurableSpace.comap (residual X Z g h C) inferInstance] fun ω => residual X Z g h C ω a :=
    (continuous_apply a).stronglyMeasurable.comp_measurable (comap_measurable _)
  have hiR : Integrable (fun ω => residual X Z g h C ω a) P := (H.memR a).integrable (by norm_num)
  have hiX : Integrable (fun ω => X ω a) P := (H.memX a).integrable (by norm_num)
  have hiM : Integrable (fun ω => (g.given h C (Z ω)).mean a) P := by
    have : (fun ω => (g.given h C (Z ω)).mean a) = fun ω => X ω a - residual X Z g h C ω a := by
      funext ω
      show _ = X ω a - (X ω a - _)
      ring
    rw [this]
    exact hiX.sub hiR
  have h0 := condExp_indep_eq H.measR.comap_le hle hR (H.residual_indep hS)
  rw [(H.residual_normal hS).mean a] at h0
  have h1 : (fun ω => X ω a) = (fun ω => (g.given h C (Z ω)).mean a) + fun ω => residual X Z g h C ω a := by
    funext ω
    show X ω a = _ + (X ω a - _)
    ring
  rw [h1]
  filter_upwards [condExp_add hiM hiR (MeasurableSpace.comap Z inferInstance), h0] with ω e1 e2
  rw [e1, Pi.add_apply, e2, condExp_of_stronglyMeasurable hle hm hiM]
  simp

/-- The conditional covariances. -/
theorem Jointly.condCov (H : Jointly P X Z g h C) (hS : IsUnit h.var.det) (a a' : Fin k) :
    P[fun ω => (X ω a - (g.given h C (Z ω)).mean a) * (X ω a' - (g.given h C (Z ω)).mean a') | MeasurableSpace.comap Z inferInstance] =ᵐ[P]
      fun ω => (g.given h C (Z ω)).var a a' := by
  have := H.gaussian.isProbabilityMeasure
  have hR : StronglyMeasurable[MeasurableSpace.comap (residual X Z g h C) inferInstance]
      fun ω => residual X Z g h C ω a * residual X Z g h C ω a' :=
    (((continuous_apply a).mul (continuous_apply a')).stronglyMeasurable (f := fun r : Fin k → ℝ => r a * r a')).comp_measurable
      (comap_measurable _)
  have h0 := condExp_indep_eq H.measR.comap_le H.measZ.comap_le hR (H.residual_indep hS)
  have h1 := (H.residual_normal hS).cov a a'
  rw [covariance_eq_sub (H.memR a) (H.memR a'), (H.residual_normal hS).mean a] at h1
  simp only [Pi.zero_apply, zero_mul, sub_zero] at h1
  filter_upwards [h0] with ω e
  refine e.trans ?_
  exact h1

end Stheno
