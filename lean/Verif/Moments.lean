import Mathlib.Probability.Distributions.Gaussian.IsGaussianProcess.Basic
import Mathlib.Probability.Distributions.Gaussian.Real
import Mathlib.Probability.Moments.MGFAnalytic
import Mathlib.Probability.Moments.Covariance
import Mathlib.Tactic.LinearCombination

/-!
# Moments of jointly Gaussian random variables

Third and fourth moments, and from them the covariances of products of jointly Gaussian random variables.
-/

namespace Stheno

open MeasureTheory ProbabilityTheory Real
open scoped NNReal ENNReal

theorem exp_deriv (v : ℝ) (p p' : ℝ → ℝ) (hp : ∀ t, HasDerivAt p (p' t) t) :
    deriv (fun t => p t * exp (v * t ^ 2 / 2)) = fun t => (p' t + v * t * p t) * exp (v * t ^ 2 / 2) := by
  funext t
  have h1 : HasDerivAt (fun t : ℝ => v * t ^ 2 / 2) (v * t) t := by
    have := ((hasDerivAt_pow 2 t).const_mul v).div_const 2
    have e : v * (((2 : ℕ) : ℝ) * t ^ (2 - 1)) / 2 = v * t := by norm_num; ring
    rwa [e] at this
  have h2 : HasDerivAt (fun t => p t * exp (v * t ^ 2 / 2)) _ t := (hp t).mul h1.exp
  rw [h2.deriv]
  ring

theorem iteratedDeriv_gauss (v : ℝ) : iteratedDeriv 3 (fun t => exp (v * t ^ 2 / 2)) 0 = 0 ∧
    iteratedDeriv 4 (fun t => exp (v * t ^ 2 / 2)) 0 = 3 * v ^ 2 := by
  have e0 : (fun t : ℝ => exp (v * t ^ 2 / 2)) = fun t => (1 : ℝ) * exp (v * t ^ 2 / 2) := by simp
  have e1 : iteratedDeriv 1 (fun t => exp (v * t ^ 2 / 2)) = fun t => v * t * exp (v * t ^ 2 / 2) := by
    rw [iteratedDeriv_one, e0, exp_deriv v (fun _ => 1) (fun _ => 0) fun t => hasDerivAt_const t 1]
    funext t; ring
  have e2 : iteratedDeriv 2 (fun t => exp (v * t ^ 2 / 2)) = fun t => (v + v ^ 2 * t ^ 2) * exp (v * t ^ 2 / 2) := by
    rw [iteratedDeriv_succ, e1, exp_deriv v (fun t => v * t) (fun _ => v) fun t => by simpa using (hasDerivAt_id t).const_mul v]
    funext t; ring
  have e3 : iteratedDeriv 3 (fun t => exp (v * t ^ 2 / 2)) = fun t => (3 * v ^ 2 * t + v ^ 3 * t ^ 3) * exp (v * t ^ 2 / 2) := by
    rw [iteratedDeriv_succ, e2, exp_deriv v (fun t => v + v ^ 2 * t ^ 2) (fun t => v ^ 2 * (2 * t)) fun t => by
      simpa using ((hasDerivAt_pow 2 t).const_mul (v ^ 2)).const_add v]
    funext t; ring
  have e4 : iteratedDeriv 4 (fun t => exp (v * t ^ 2 / 2)) =
      fun t => (3 * v ^ 2 + 6 * v ^ 3 * t ^ 2 + v ^ 4 * t ^ 4) * exp (v * t ^ 2 / 2) := by
    rw [iteratedDeriv_succ, e3, exp_deriv v (fun t => 3 * v ^ 2 * t + v ^ 3 * t ^ 3) (fun t => 3 * v ^ 2 + v ^ 3 * (3 * t ^ 2)) fun t => by
      have h1 : HasDerivAt (fun t => 3 * v ^ 2 * t) (3 * v ^ 2) t := by simpa using (hasDerivAt_id t).const_mul (3 * v ^ 2)
      have h2 : HasDerivAt (fun t => v ^ 3 * t ^ 3) (v ^ 3 * (3 * t ^ 2)) t := by simpa using (hasDerivAt_pow 3 t).const_mul (v ^ 3)
      exact h1.add h2]
    funext t; ring
  rw [e3, e4]
  simp

/-- Third and fourth moments of a centred normal distribution. -/
theorem moments_gaussianReal (v : ℝ≥0) : ∫ x, x ^ 3 ∂gaussianReal 0 v = 0 ∧ ∫ x, x ^ 4 ∂gaussianReal 0 v = 3 * (v : ℝ) ^ 2 := by
  have h0 : (0 : ℝ) ∈ interior (integrableExpSet id (gaussianReal 0 v)) := by
    rw [integrableExpSet_id_gaussianReal]; simp
  have hm : mgf id (gaussianReal 0 v) = fun t => exp (v * t ^ 2 / 2) := by
    rw [mgf_id_gaussianReal]; simp
  have h3 := iteratedDeriv_mgf_zero h0 3
  have h4 := iteratedDeriv_mgf_zero h0 4
  rw [hm] at h3 h4
  obtain ⟨e3, e4⟩ := iteratedDeriv_gauss v
  rw [e3] at h3
  rw [e4] at h4
  exact ⟨h3.symm, h4.symm⟩

variable {Ω : Type*} [MeasurableSpace Ω] {P : Measure Ω}

theorem HasGaussianLaw.moments {Y : Ω → ℝ} (h : HasGaussianLaw Y P) (h0 : ∫ ω, Y ω ∂P = 0) :
    ∫ ω, Y ω ^ 3 ∂P = 0 ∧ ∫ ω, Y ω ^ 4 ∂P = 3 * Var[Y; P] ^ 2 := by
  have hl := h.map_eq_gaussianReal
  rw [h0] at hl
  have hc : ∀ k : ℕ, ∫ ω, Y ω ^ k ∂P = ∫ x, x ^ k ∂gaussianReal 0 Var[Y; P].toNNReal := fun k => by
    rw [← hl, integral_map h.aemeasurable (by fun_prop)]
  obtain ⟨h3, h4⟩ := moments_gaussianReal Var[Y; P].toNNReal
  rw [hc, hc, h3, h4, Real.coe_toNNReal _ (variance_nonneg _ _)]
  exact ⟨rfl, rfl⟩

theorem HasGaussianLaw.integrable_pow {Y : Ω → ℝ} (h : HasGaussianLaw Y P) (k : ℕ) : Integrable (fun ω => Y ω ^ k) P := by
  have := h.isProbabilityMeasure
  have h1 : MemLp Y k P := h.memLp (by simp)
  have h2 := h1.integrable_norm_pow'
  refine h2.mono (h.aemeasurable.pow_const k).aestronglyMeasurable (Filter.Eventually.of_forall fun ω => ?_)
  simp

section
variable {X : Fin 4 → Ω → ℝ}

/-- Linear combinations. -/
theorem lin_gaussian (h : HasGaussianLaw (fun ω i => X i ω) P) (h0 : ∀ i, ∫ ω, X i ω ∂P = 0) (s : Fin 4 → ℝ) :
    HasGaussianLaw (fun ω => ∑ i, s i * X i ω) P ∧ ∫ ω, ∑ i, s i * X i ω ∂P = 0 ∧
      Var[fun ω => ∑ i, s i * X i ω; P] = ∑ i, ∑ j, s i * s j * cov[X i, X j; P] := by
  have := h.isProbabilityMeasure
  have h2 : ∀ i, MemLp (X i) 2 P := fun i => (h.eval i).memLp_two
  have h2' : ∀ i, MemLp (fun ω => s i * X i ω) 2 P := fun i => (h2 i).const_mul (s i)
  refine ⟨?_, ?_, ?_⟩
  · let L : (Fin 4 → ℝ) →ₗ[ℝ] ℝ :=
      { toFun x := ∑ i, s i * x i
        map_add' x y := by simp [mul_add, Finset.sum_add_distrib]
        map_smul' c x := by simp only [Pi.smul_apply, smul_eq_mul, RingHom.id_apply, Finset.mul_sum]; exact Finset.sum_congr rfl fun i _ => by ring }
    exact h.map (LinearMap.toContinuousLinearMap L)
  · rw [integral_finsetSum _ fun i _ => (h2' i).integrable (by norm_num)]
    exact Finset.sum_eq_zero fun i _ => by rw [integral_const_mul, h0, mul_zero]
  · rw [← covariance_self (Finset.aemeasurable_fun_sum _ fun i _ => (h2' i).aestronglyMeasurable.aemeasurable),
      covariance_fun_sum_fun_sum h2' h2']
    refine Finset.sum_congr rfl fun i _ => Finset.sum_congr rfl fun j _ => ?_
    rw [covariance_const_mul_left, covariance_const_mul_right]
    ring

/-- Isserlis' theorem for three and four variables. -/
theorem isserlis (h : HasGaussianLaw (fun ω i => X i ω) P) (h0 : ∀ i, ∫ ω, X i ω ∂P = 0) :
    (Integrable (fun ω => X 0 ω * X 1 ω * X 2 ω) P ∧ ∫ ω, X 0 ω * X 1 ω * X 2 ω ∂P = 0) ∧
    Integrable (fun ω => X 0 ω * X 1 ω * X 2 ω * X 3 ω) P ∧
    ∫ ω, X 0 ω * X 1 ω * X 2 ω * X 3 ω ∂P =
      cov[X 0, X 1; P] * cov[X 2, X 3; P] + cov[X 0, X 2; P] * cov[X 1, X 3; P] + cov[X 0, X 3; P] * cov[X 1, X 2; P] := by
  have L := fun s => lin_gaussian h h0 s
  have i3 := fun s => HasGaussianLaw.integrable_pow (L s).1 3
  have i4 := fun s => HasGaussianLaw.integrable_pow (L s).1 4
  have m3 := fun s => (HasGaussianLaw.moments (L s).1 (L s).2.1).1
  have m4 := fun s => (HasGaussianLaw.moments (L s).1 (L s).2.1).2
  have e3 : (fun ω => X 0 ω * X 1 ω * X 2 ω) = fun ω => 1 / 24 * ((((∑ i, ![1, 1, 1, 0] i * X i ω) ^ 3 - (∑ i, ![1, 1, -1, 0] i * X i ω) ^ 3) -
      (∑ i, ![1, -1, 1, 0] i * X i ω) ^ 3) + (∑ i, ![1, -1, -1, 0] i * X i ω) ^ 3) := by
    funext ω
    simp [Fin.sum_univ_four]
    ring
  have e4 : (fun ω => X 0 ω * X 1 ω * X 2 ω * X 3 ω) = fun ω => 1 / 192 *
      (((((((((∑ i, ![1, 1, 1, 1] i * X i ω) ^ 4 - (∑ i, ![1, 1, 1, -1] i * X i ω) ^ 4) -
      (∑ i, ![1, 1, -1, 1] i * X i ω) ^ 4) + (∑ i, ![1, 1, -1, -1] i * X i ω) ^ 4) -
      (∑ i, ![1, -1, 1, 1] i * X i ω) ^ 4) + (∑ i, ![1, -1, 1, -1] i * X i ω) ^ 4) +
      (∑ i, ![1, -1, -1, 1] i * X i ω) ^ 4) - (∑ i, ![1, -1, -1, -1] i * X i ω) ^ 4)) := by
    funext ω
    simp [Fin.sum_univ_four]
    ring
  have I3 : ∀ s t u w : Fin 4 → ℝ, ∫ ω, (∑ i, s i * X i ω) ^ 3 - (∑ i, t i * X i ω) ^ 3 - (∑ i, u i * X i ω) ^ 3 + (∑ i, w i * X i ω) ^ 3 ∂P = 0 :=
    fun s t u w => by
      have := ((i3 s).sub (i3 t)).sub (i3 u)
      rw [integral_add (f := fun ω => (∑ i, s i * X i ω) ^ 3 - (∑ i, t i * X i ω) ^ 3 - (∑ i, u i * X i ω) ^ 3) this (i3 w),
        integral_sub (f := fun ω => (∑ i, s i * X i ω) ^ 3 - (∑ i, t i * X i ω) ^ 3) ((i3 s).sub (i3 t)) (i3 u), integral_sub (i3 s) (i3 t), m3, m3, m3, m3]
      norm_num
  refine ⟨⟨?_, ?_⟩, ?_, ?_⟩
  · rw [e3]
    exact ((((i3 _).sub (i3 _)).sub (i3 _)).add (i3 _)).const_mul _
  · rw [e3, integral_const_mul, I3, mul_zero]
  · rw [e4]
    exact ((((((((i4 _).sub (i4 _)).sub (i4 _)).add (i4 _)).sub (i4 _)).add (i4 _)).add (i4 _)).sub (i4 _)).const_mul _
  · have sub' : ∀ f g : Ω → ℝ, Integrable f P → Integrable g P →
        Integrable (fun ω => f ω - g ω) P ∧ ∫ ω, f ω - g ω ∂P = ∫ ω, f ω ∂P - ∫ ω, g ω ∂P := fun f g hf hg => ⟨hf.sub hg, integral_sub hf hg⟩
    have add' : ∀ f g : Ω → ℝ, Integrable f P → Integrable g P →
        Integrable (fun ω => f ω + g ω) P ∧ ∫ ω, f ω + g ω ∂P = ∫ ω, f ω ∂P + ∫ ω, g ω ∂P := fun f g hf hg => ⟨hf.add hg, integral_add hf hg⟩
    have a2 := sub' _ _ (i4 ![1, 1, 1, 1]) (i4 ![1, 1, 1, -1])
    have a3 := sub' _ _ a2.1 (i4 ![1, 1, -1, 1])
    have a4 := add' _ _ a3.1 (i4 ![1, 1, -1, -1])
    have a5 := sub' _ _ a4.1 (i4 ![1, -1, 1, 1])
    have a6 := add' _ _ a5.1 (i4 ![1, -1, 1, -1])
    have a7 := add' _ _ a6.1 (i4 ![1, -1, -1, 1])
    have a8 := sub' _ _ a7.1 (i4 ![1, -1, -1, -1])
    rw [e4, integral_const_mul, a8.2, a7.2, a6.2, a5.2, a4.2, a3.2, a2.2, m4, m4, m4, m4, m4, m4, m4, m4]
    simp only [(L _).2.2]
    simp only [Fin.sum_univ_four, Matrix.cons_val]
    have c10 := covariance_comm (X := X 1) (Y := X 0) (μ := P)
    have c20 := covariance_comm (X := X 2) (Y := X 0) (μ := P)
    have c30 := covariance_comm (X := X 3) (Y := X 0) (μ := P)
    have c21 := covariance_comm (X := X 2) (Y := X 1) (μ := P)
    have c31 := covariance_comm (X := X 3) (Y := X 1) (μ := P)
    have c32 := covariance_comm (X := X 3) (Y := X 2) (μ := P)
    rw [c10, c20, c30, c21, c31, c32]
    ring

/-- Centring. -/
theorem centred_gaussian (h : HasGaussianLaw (fun ω i => X i ω) P) (c : Fin 4 → ℝ) : HasGaussianLaw (fun ω i => X i ω - c i) P where
  isGaussian_map := by
    have := h.isGaussian_map
    have e : P.map (fun ω i => X i ω - c i) = (P.map fun ω i => X i ω).map (· + (-c)) := by
      rw [AEMeasurable.map_map_of_aemeasurable (by fun_prop) h.aemeasurable]
      rfl
    rw [e]
    infer_instance

theorem mul_memLp {a b : Ω → ℝ} (ha : HasGaussianLaw a P) (hb : HasGaussianLaw b P) : MemLp (fun ω => a ω * b ω) 2 P := by
  have h4 : ENNReal.HolderTriple 4 4 2 := ⟨by
    rw [← two_mul, show (4 : ℝ≥0∞) = 2 * 2 by norm_num, ENNReal.mul_inv (by norm_num) (by norm_num), ← mul_assoc,
      ENNReal.mul_inv_cancel (by norm_num) (by norm_num), one_mul]⟩
  exact (hb.memLp (p := 4) (by norm_num)).mul (ha.memLp (p := 4) (by norm_num))

/-- The expectation and the covariances of products of jointly Gaussian random variables. -/
theorem cov_products (h : HasGaussianLaw (fun ω i => X i ω) P) :
    ∫ ω, X 0 ω * X 1 ω ∂P = P[X 0] * P[X 1] + cov[X 0, X 1; P] ∧
    cov[fun ω => X 0 ω * X 1 ω, X 2; P] = P[X 0] * cov[X 1, X 2; P] + P[X 1] * cov[X 0, X 2; P] ∧
    cov[fun ω => X 0 ω * X 1 ω, fun ω => X 2 ω * X 3 ω; P] =
      cov[X 0, X 2; P] * cov[X 1, X 3; P] + cov[X 0, X 3; P] * cov[X 1, X 2; P] +
      P[X 0] * P[X 2] * cov[X 1, X 3; P] + P[X 0] * P[X 3] * cov[X 1, X 2; P] +
      P[X 1] * P[X 2] * cov[X 0, X 3; P] + P[X 1] * P[X 3] * cov[X 0, X 2; P] := by
  have := h.isProbabilityMeasure
  let c : Fin 4 → ℝ := fun i => P[X i]
  let Y : Fin 4 → Ω → ℝ := fun i ω => X i ω - c i
  have hX : ∀ i, MemLp (X i) 2 P := fun i => (h.eval i).memLp_two
  have hY' : HasGaussianLaw (fun ω i => Y i ω) P := centred_gaussian h c
  have hY : ∀ i, MemLp (Y i) 2 P := fun i => (hY'.eval i).memLp_two
  have hYi : ∀ i, Integrable (Y i) P := fun i => (hY i).integrable (by norm_num)
  have hY0 : ∀ i, ∫ ω, Y i ω ∂P = 0 := fun i => by
    show ∫ ω, X i ω - c i ∂P = 0
    rw [integral_sub ((hX i).integrable (by norm_num)) (integrable_const _)]
    simp [c]
  have hYY : ∀ i j, MemLp (fun ω => Y i ω * Y j ω) 2 P := fun i j => mul_memLp (hY'.eval i) (hY'.eval j)
  have cY : ∀ i j, cov[X i, X j; P] = cov[Y i, Y j; P] := fun i j => by
    show _ = cov[fun ω => X i ω - c i, fun ω => X j ω - c j; P]
    rw [covariance_sub_const_left ((hX i).integrable (by norm_num)), covariance_sub_const_right ((hX j).integrable (by norm_num))]
  have eY : ∀ i j, ∫ ω, Y i ω * Y j ω ∂P = cov[X i, X j; P] := fun i j => by
    rw [cY, covariance_eq_sub (hY i) (hY j), hY0, zero_mul, sub_zero]; rfl
  have hp : ∀ i j, (fun ω => X i ω * X j ω) = fun ω => (Y i ω * Y j ω + c i * Y j ω + c j * Y i ω) + c i * c j := fun i j => by
    funext ω; simp only [Y]; ring
  have hl : ∀ i j, MemLp (fun ω => c i * Y j ω) 2 P := fun i j => (hY j).const_mul _
  have h12 : ∀ i j, MemLp (fun ω => Y i ω * Y j ω + c i * Y j ω) 2 P := fun i j => (hYY i j).add (hl i j)
  have h123 : ∀ i j, MemLp (fun ω => Y i ω * Y j ω + c i * Y j ω + c j * Y i ω) 2 P := fun i j => (h12 i j).add (hl j i)
  have left : ∀ i j (Z : Ω → ℝ), MemLp Z 2 P → cov[fun ω => X i ω * X j ω, Z; P] =
      cov[fun ω => Y i ω * Y j ω, Z; P] + c i * cov[Y j, Z; P] + c j * cov[Y i, Z; P] := fun i j Z hZ => by
    rw [hp, covariance_add_const_left ((h123 i j).integrable (by norm_num))]
    rw [show (fun ω => Y i ω * Y j ω + c i * Y j ω + c j * Y i ω) = (fun ω => Y i ω * Y j ω + c i * Y j ω) + fun ω => c j * Y i ω from rfl,
      covariance_add_left (h12 i j) (hl j i) hZ,
      show (fun ω => Y i ω * Y j ω + c i * Y j ω) = (fun ω => Y i ω * Y j ω) + fun ω => c i * Y j ω from rfl,
      covariance_add_left (hYY i j) (hl i j) hZ, covariance_const_mul_left, covariance_const_mul_left]
  have third : ∀ i j k, cov[fun ω => Y i ω * Y j ω, Y k; P] = 0 := fun i j k => by
    have g : HasGaussianLaw (fun ω a => (fun a : Fin 4 => Y (![i, j, k, k] a)) a ω) P := by
      let L : (Fin 4 → ℝ) →ₗ[ℝ] Fin 4 → ℝ :=
        { toFun x a := x (![i, j, k, k] a)
          map_add' x y := rfl
          map_smul' c x := rfl }
      exact hY'.map (LinearMap.toContinuousLinearMap L)
    have := (isserlis g fun a => hY0 _).1.2
    rw [covariance_eq_sub (hYY i j) (hY k), hY0, mul_zero, sub_zero]
    exact this
  have cX : ∀ i k, cov[Y i, X k; P] = cov[X i, X k; P] := fun i k =>
    covariance_sub_const_left ((hX i).integrable (by norm_num)) _
  have tX : ∀ i j k, cov[fun ω => Y i ω * Y j ω, X k; P] = 0 := fun i j k => by
    rw [← third i j k]
    exact (covariance_sub_const_right ((hX k).integrable (by norm_num)) (c k)).symm
  refine ⟨?_, ?_, ?_⟩
  · have := covariance_eq_sub (hX 0) (hX 1)
    rw [this]
    show _ = P[X 0] * P[X 1] + (∫ ω, X 0 ω * X 1 ω ∂P - P[X 0] * P[X 1])
    ring
  · rw [left 0 1 _ (hX 2), tX, cX, cX, zero_add]
  · have h01 : MemLp (fun ω => X 2 ω * X 3 ω) 2 P := mul_memLp (h.eval 2) (h.eval 3)
    have fourth : cov[fun ω => Y 0 ω * Y 1 ω, fun ω => Y 2 ω * Y 3 ω; P] =
        cov[X 0, X 2; P] * cov[X 1, X 3; P] + cov[X 0, X 3; P] * cov[X 1, X 2; P] := by
      have := (isserlis hY' hY0).2.2
      rw [covariance_eq_sub (hYY 0 1) (hYY 2 3), eY, eY]
      have e : P[(fun ω => Y 0 ω * Y 1 ω) * fun ω => Y 2 ω * Y 3 ω] = ∫ ω, Y 0 ω * Y 1 ω * Y 2 ω * Y 3 ω ∂P := by
        congr 1; funext ω; simp only [Pi.mul_apply]; ring
      rw [e, this, cY 0 1, cY 2 3, cY 0 2, cY 1 3, cY 0 3, cY 1 2]
      ring
    rw [left 0 1 _ h01, covariance_comm (X := fun ω => Y 0 ω * Y 1 ω), covariance_comm (X := Y 1), covariance_comm (X := Y 0),
      left 2 3 _ (hYY 0 1), left 2 3 _ (hY 1), left 2 3 _ (hY 0), third, third, covariance_comm (X := Y 3), covariance_comm (X := Y 2),
      third, third, covariance_comm (X := fun ω => Y 2 ω * Y 3 ω), fourth, ← cY, ← cY, ← cY, ← cY,
      covariance_comm (X := X 3) (Y := X 1), covariance_comm (X := X 2) (Y := X 1), covariance_comm (X := X 3) (Y := X 0),
      covariance_comm (X := X 2) (Y := X 0)]
    simp only [c]
    ring

end

end Stheno
