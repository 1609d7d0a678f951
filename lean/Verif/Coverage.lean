import Mathlib.Analysis.Real.Pi.Bounds
import Mathlib.Analysis.SpecialFunctions.Integrals.Basic
import Mathlib.Probability.Distributions.Gaussian.Real
import Mathlib.Analysis.Calculus.Deriv.MeanValue

/-!
# The probability that a Gaussian variable is within 1.96 standard deviations of its mean
-/

namespace Stheno

open MeasureTheory ProbabilityTheory

/-- Partial sums of the series of `exp (-t)`. -/
noncomputable def expSum (n : ℕ) (t : ℝ) : ℝ := ∑ k ∈ Finset.range n, (-t) ^ k / k.factorial

theorem expSum_zero (n : ℕ) : expSum (n + 1) 0 = 1 := by
  unfold expSum
  rw [Finset.sum_range_succ']
  simp

theorem expSum_deriv (n : ℕ) (t : ℝ) : HasDerivAt (expSum (n + 1)) (-expSum n t) t := by
  induction n with
  | zero =>
    have : expSum 1 = fun _ => (1 : ℝ) := by
      funext t; simp [expSum]
    rw [this]
    simpa [expSum] using hasDerivAt_const t (1 : ℝ)
  | succ n ih =>
    have e : expSum (n + 1 + 1) = fun t => expSum (n + 1) t + (-t) ^ (n + 1) / (n + 1).factorial := by
      funext t; exact Finset.sum_range_succ ..
    have h1 : HasDerivAt (fun t : ℝ => (-t) ^ (n + 1) / (n + 1).factorial) (((n + 1 : ℕ) : ℝ) * (-t) ^ n * (-1) / (n + 1).factorial) t := by
      have := ((hasDerivAt_id t).neg.pow (n + 1)).div_const ((n + 1).factorial : ℝ)
      simpa using this
    rw [e]
    refine (ih.add h1).congr_deriv ?_
    rw [show expSum (n + 1) t = expSum n t + (-t) ^ n / n.factorial from Finset.sum_range_succ .., Nat.factorial_succ]
    have hf : (n.factorial : ℝ) ≠ 0 := by positivity
    push_cast
    field_simp
    ring

/-- The partial sums are alternately above and below. -/
theorem exp_alternates (n : ℕ) : ∀ t, 0 ≤ t → 0 ≤ (-1) ^ n * (Real.exp (-t) - expSum n t) := by
  induction n with
  | zero => intro t _; simp [expSum, Real.exp_nonneg]
  | succ n ih =>
    intro t ht
    have hd : ∀ t, HasDerivAt (fun t => (-1) ^ (n + 1) * (Real.exp (-t) - expSum (n + 1) t)) ((-1) ^ n * (Real.exp (-t) - expSum n t)) t := by
      intro t
      have h1 : HasDerivAt (fun t => Real.exp (-t)) (Real.exp (-t) * (-1)) t := (hasDerivAt_id t).neg.exp
      refine ((h1.sub (expSum_deriv n t)).const_mul ((-1) ^ (n + 1))).congr_deriv ?_
      rw [pow_succ]
      ring
    have hm := monotoneOn_of_deriv_nonneg (convex_Ici (0 : ℝ)) (f := fun t => (-1) ^ (n + 1) * (Real.exp (-t) - expSum (n + 1) t))
      (fun t _ => (hd t).continuousAt.continuousWithinAt) (fun t _ => (hd t).differentiableAt.differentiableWithinAt)
      (fun t h => by rw [(hd t).deriv]; rw [interior_Ici] at h; exact ih t (le_of_lt h))
    have := hm (Set.mem_Ici.2 le_rfl) (Set.mem_Ici.2 ht) ht
    simpa [expSum_zero] using this

theorem exp_lower (n : ℕ) {t : ℝ} (ht : 0 ≤ t) : expSum (2 * n) t ≤ Real.exp (-t) := by
  have := exp_alternates (2 * n) t ht
  simpa using this

theorem exp_upper (n : ℕ) {t : ℝ} (ht : 0 ≤ t) : Real.exp (-t) ≤ expSum (2 * n + 1) t := by
  have := exp_alternates (2 * n + 1) t ht
  simp [pow_succ] at this
  linarith

theorem expSum_integral (n : ℕ) (a : ℝ) : ∫ x in -a..a, expSum n (x ^ 2 / 2) =
    ∑ k ∈ Finset.range n, (-1 / 2) ^ k / k.factorial * (2 * a ^ (2 * k + 1) / (2 * k + 1)) := by
  unfold expSum
  have e : ∀ x : ℝ, ∀ k : ℕ, (-(x ^ 2 / 2)) ^ k / k.factorial = (-1 / 2) ^ k / k.factorial * x ^ (2 * k) := by
    intro x k
    rw [show -(x ^ 2 / 2) = (-1 / 2) * x ^ 2 by ring, mul_pow, pow_mul]
    ring
  simp only [e]
  rw [intervalIntegral.integral_finsetSum fun k _ => by
    exact (Continuous.intervalIntegrable (by fun_prop) _ _)]
  refine Finset.sum_congr rfl fun k _ => ?_
  rw [intervalIntegral.integral_const_mul, integral_pow]
  congr 1
  push_cast
  rw [Odd.neg_pow ⟨k, rfl⟩]
  ring

theorem gauss_integral_bounds (n : ℕ) {a : ℝ} (ha : 0 ≤ a) :
    ∑ k ∈ Finset.range (2 * n), (-1 / 2) ^ k / (k.factorial : ℝ) * (2 * a ^ (2 * k + 1) / (2 * k + 1)) ≤ ∫ x in -a..a, Real.exp (-(x ^ 2 / 2)) ∧
    ∫ x in -a..a, Real.exp (-(x ^ 2 / 2)) ≤ ∑ k ∈ Finset.range (2 * n + 1), (-1 / 2) ^ k / (k.factorial : ℝ) * (2 * a ^ (2 * k + 1) / (2 * k + 1)) := by
  have hc : ∀ n, Continuous fun x : ℝ => expSum n (x ^ 2 / 2) := fun n => by unfold expSum; fun_prop
  have he : Continuous fun x : ℝ => Real.exp (-(x ^ 2 / 2)) := by fun_prop
  rw [← expSum_integral, ← expSum_integral]
  constructor
  · exact intervalIntegral.integral_mono_on (by linarith) ((hc _).intervalIntegrable _ _) (he.intervalIntegrable _ _) fun x _ => exp_lower n (by positivity)
  · exact intervalIntegral.integral_mono_on (by linarith) (he.intervalIntegrable _ _) ((hc _).intervalIntegrable _ _) fun x _ => exp_upper n (by positivity)

theorem gauss_integral : 2.381307 ≤ ∫ x in -1.96..(1.96 : ℝ), Real.exp (-(x ^ 2 / 2)) ∧ ∫ x in -1.96..(1.96 : ℝ), Real.exp (-(x ^ 2 / 2)) ≤ 2.381308 := by
  obtain ⟨h1, h2⟩ := gauss_integral_bounds 9 (a := 1.96) (by norm_num)
  constructor
  · refine le_trans ?_ h1
    norm_num [Finset.sum_range_succ, Nat.factorial]
  · refine h2.trans ?_
    norm_num [Finset.sum_range_succ, Nat.factorial]

/-- The probability that a standard Gaussian variable is within 1.96 of zero. -/
theorem gauss_coverage : 0.95 ≤ (gaussianReal 0 1).real (Set.Icc (-1.96) 1.96) ∧ (gaussianReal 0 1).real (Set.Icc (-1.96) 1.96) ≤ 0.95001 := by
  have e : (gaussianReal 0 1).real (Set.Icc (-1.96) 1.96) = (√(2 * Real.pi))⁻¹ * ∫ x in -1.96..(1.96 : ℝ), Real.exp (-(x ^ 2 / 2)) := by
    rw [measureReal_def, gaussianReal_apply_eq_integral _ one_ne_zero, ENNReal.toReal_ofReal (integral_nonneg fun x => gaussianPDFReal_nonneg _ _ _),
      integral_Icc_eq_integral_Ioc, ← intervalIntegral.integral_of_le (by norm_num), ← intervalIntegral.integral_const_mul]
    refine intervalIntegral.integral_congr fun x _ => ?_
    simp [gaussianPDFReal, neg_div]
  have hs : 0 < √(2 * Real.pi) := by positivity
  have h2 : √(2 * Real.pi) ^ 2 = 2 * Real.pi := Real.sq_sqrt (by positivity)
  have l : 2.506628 ≤ √(2 * Real.pi) := by
    refine Real.le_sqrt_of_sq_le ?_
    have := Real.pi_gt_d6
    norm_num at this ⊢
    linarith
  have u : √(2 * Real.pi) ≤ 2.506629 := by
    refine Real.sqrt_le_left (by norm_num) |>.2 ?_
    have := Real.pi_lt_d6
    norm_num at this ⊢
    linarith
  obtain ⟨h3, h4⟩ := gauss_integral
  rw [e, inv_mul_eq_div, le_div_iff₀ hs, div_le_iff₀ hs]
  constructor
  · refine le_trans ?_ h3
    norm_num at u ⊢
    linarith
  · refine h4.trans ?_
    norm_num at l ⊢
    linarith

end Stheno
