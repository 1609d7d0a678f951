import Mathlib.Probability.ConditionalExpectation
import Mathlib.MeasureTheory.Function.ConditionalExpectation.PullOut
import Mathlib.MeasureTheory.Function.ConditionalExpectation.Real
import Mathlib.MeasureTheory.Function.L2Space
import Mathlib.Probability.Moments.Covariance

/-!
# Conditional expectations are best predictions

Nothing here depends on how the code computes.
-/

namespace Stheno

open MeasureTheory ProbabilityTheory

variable {Ω : Type*} {F m0 : MeasurableSpace Ω} {P : Measure Ω} {X M f : Ω → ℝ}

/-- The expected square of a square integrable variable. -/
theorem lintegral_sq_eq (h : MemLp X 2 P) : ∫⁻ ω, ENNReal.ofReal (X ω ^ 2) ∂P = ENNReal.ofReal (∫ ω, X ω ^ 2 ∂P) :=
  (ofReal_integral_eq_lintegral_ofReal h.integrable_sq (.of_forall fun _ => sq_nonneg _)).symm

/-- Variables that are not square integrable. -/
theorem lintegral_sq_top (hm : AEStronglyMeasurable X P) (h : ¬MemLp X 2 P) : ∫⁻ ω, ENNReal.ofReal (X ω ^ 2) ∂P = ⊤ := by
  by_contra h0
  refine h ((memLp_two_iff_integrable_sq hm).2 ⟨hm.pow 2, ?_⟩)
  rw [hasFiniteIntegral_iff_ofReal (.of_forall fun _ => sq_nonneg _)]
  exact lt_top_iff_ne_top.2 h0

/-- What is not explained is orthogonal to what is known. -/
theorem integral_residual_mul [IsFiniteMeasure P] (hF : F ≤ m0) (hX : MemLp X 2 P) (hf : StronglyMeasurable[F] f) (hf2 : MemLp f 2 P) :
    ∫ ω, (X ω - (P[X | F]) ω) * f ω ∂P = 0 := by
  have h2 : MemLp (P[X | F]) 2 P := (hX.condExp one_le_two)
  have hi : Integrable ((X - P[X | F]) * f) P := (hX.sub h2).integrable_mul hf2
  have h1 : Integrable (X - P[X | F]) P := (hX.sub h2).integrable (by norm_num)
  have key := condExp_mul_of_stronglyMeasurable_right hf hi h1
  have h0 : P[X - P[X | F] | F] =ᵐ[P] 0 := by
    filter_upwards [condExp_sub (hX.integrable (by norm_num)) (h2.integrable (by norm_num)) F] with ω e
    rw [e, Pi.sub_apply, condExp_of_stronglyMeasurable hF stronglyMeasurable_condExp (h2.integrable (by norm_num)), sub_self]
    rfl
  show ∫ ω, ((X - P[X | F]) * f) ω ∂P = 0
  rw [← integral_condExp hF, integral_congr_ae (g := fun _ => (0 : ℝ))]
  · simp
  · filter_upwards [key, h0] with ω e1 e2
    rw [e1, Pi.mul_apply, e2]
    simp

/-- **The squared error of a prediction** is the squared error of the conditional expectation plus the squared distance from it. -/
theorem prediction_error [IsFiniteMeasure P] (hF : F ≤ m0) (hX : MemLp X 2 P) (hM : P[X | F] =ᵐ[P] M) (hf : StronglyMeasurable[F] f) :
    ∫⁻ ω, ENNReal.ofReal ((X ω - f ω) ^ 2) ∂P = ENNReal.ofReal (∫ ω, (X ω - M ω) ^ 2 ∂P) + ∫⁻ ω, ENNReal.ofReal ((M ω - f ω) ^ 2) ∂P := by
  have h2 : MemLp M 2 P := (memLp_congr_ae hM).1 (hX.condExp one_le_two)
  have hfm : AEStronglyMeasurable f P := (hf.mono hF).aestronglyMeasurable
  by_cases hf2 : MemLp f 2 P
  · have e1 := lintegral_sq_eq (hX.sub hf2)
    have e2 := lintegral_sq_eq (h2.sub hf2)
    simp only [Pi.sub_apply] at e1 e2
    rw [e1, e2, ← ENNReal.ofReal_add (integral_nonneg fun _ => sq_nonneg _) (integral_nonneg fun _ => sq_nonneg _)]
    congr 1
    have i1 : Integrable (fun ω => (X ω - M ω) ^ 2) P := (hX.sub h2).integrable_sq
    have i2 : Integrable (fun ω => (M ω - f ω) ^ 2) P := (h2.sub hf2).integrable_sq
    have i3 : Integrable (fun ω => (X ω - M ω) * (M ω - f ω)) P := (hX.sub h2).integrable_mul (h2.sub hf2)
    have e0 : ∫ ω, (X ω - M ω) * (M ω - f ω) ∂P = 0 := by
      rw [← integral_residual_mul hF hX (stronglyMeasurable_condExp.sub hf) ((hX.condExp one_le_two).sub hf2) (F := F)]
      refine integral_congr_ae ?_
      filter_upwards [hM] with ω e
      rw [Pi.sub_apply, e]
    have e3 : ∀ ω, (X ω - f ω) ^ 2 = ((X ω - M ω) ^ 2 + (M ω - f ω) ^ 2) + 2 * ((X ω - M ω) * (M ω - f ω)) := fun ω => by ring
    have i12 : Integrable (fun ω => (X ω - M ω) ^ 2 + (M ω - f ω) ^ 2) P := i1.add i2
    simp only [e3]
    rw [integral_add i12 (i3.const_mul 2), integral_const_mul, e0, mul_zero, add_zero, integral_add i1 i2]
  · have n1 : ¬MemLp (X - f) 2 P := fun h => hf2 (by simpa using hX.sub h)
    have n2 : ¬MemLp (M - f) 2 P := fun h => hf2 (by simpa using h2.sub h)
    have e1 := lintegral_sq_top (hX.1.sub hfm) n1
    have e2 := lintegral_sq_top (h2.1.sub hfm) n2
    simp only [Pi.sub_apply] at e1 e2
    rw [e1, e2, add_top]

/-- **The law of total covariance**, in terms of what is not explained. -/
theorem total_covariance [IsProbabilityMeasure P] (hF : F ≤ m0) {X' M' : Ω → ℝ} (hX : MemLp X 2 P) (hX' : MemLp X' 2 P) (hM : P[X | F] =ᵐ[P] M)
    (hM' : P[X' | F] =ᵐ[P] M') : cov[M, M'; P] = cov[X, X'; P] - ∫ ω, (X ω - M ω) * (X' ω - M' ω) ∂P := by
  have h2 : MemLp M 2 P := (memLp_congr_ae hM).1 (hX.condExp one_le_two)
  have h2' : MemLp M' 2 P := (memLp_congr_ae hM').1 (hX'.condExp one_le_two)
  have m1 : ∫ ω, M ω ∂P = ∫ ω, X ω ∂P := by rw [← integral_condExp hF (f := X), integral_congr_ae hM]
  have m2 : ∫ ω, M' ω ∂P = ∫ ω, X' ω ∂P := by rw [← integral_condExp hF (f := X'), integral_congr_ae hM']
  have e1 : ∫ ω, (X ω - M ω) * M' ω ∂P = 0 := by
    rw [← integral_residual_mul hF hX stronglyMeasurable_condExp (hX'.condExp one_le_two) (F := F)]
    refine integral_congr_ae ?_
    filter_upwards [hM, hM'] with ω e e'
    rw [e, e']
  have e2 : ∫ ω, (X' ω - M' ω) * M ω ∂P = 0 := by
    rw [← integral_residual_mul hF hX' stronglyMeasurable_condExp (hX.condExp one_le_two) (F := F)]
    refine integral_congr_ae ?_
    filter_upwards [hM, hM'] with ω e e'
    rw [e, e']
  have i0 : Integrable (fun ω => M ω * M' ω) P := h2.integrable_mul h2'
  have i1 : Integrable (fun ω => (X ω - M ω) * M' ω) P := (hX.sub h2).integrable_mul h2'
  have i2 : Integrable (fun ω => (X' ω - M' ω) * M ω) P := (hX'.sub h2').integrable_mul h2
  have i3 : Integrable (fun ω => (X ω - M ω) * (X' ω - M' ω)) P := (hX.sub h2).integrable_mul (hX'.sub h2')
  rw [covariance_eq_sub h2 h2', covariance_eq_sub hX hX', m1, m2]
  have e3 : (X * X' : Ω → ℝ) = fun ω => ((M ω * M' ω + (X ω - M ω) * M' ω) + (X' ω - M' ω) * M ω) + (X ω - M ω) * (X' ω - M' ω) := by
    funext ω
    simp only [Pi.mul_apply]
    ring
  have i01 : Integrable (fun ω => M ω * M' ω + (X ω - M ω) * M' ω) P := i0.add i1
  have i012 : Integrable (fun ω => (M ω * M' ω + (X ω - M ω) * M' ω) + (X' ω - M' ω) * M ω) P := i01.add i2
  rw [e3, integral_add i012 i3, integral_add i01 i2, integral_add i0 i1, e1, e2]
  simp only [Pi.mul_apply]
  ring

end Stheno
