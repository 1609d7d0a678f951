import Mathlib.InformationTheory.KullbackLeibler.Basic
import Verif.Props.Density

/-!
# Properties of entropies and divergences: C39
-/

namespace Stheno

open Matrix MeasureTheory ProbabilityTheory InformationTheory
open scoped MatrixOrder ENNReal

variable {n : ℕ} {Ω : Type*} [MeasurableSpace Ω] {P : Measure Ω} {X : Ω → Fin n → ℝ} {g h : Normal n}

/-- Expectations of quadratic forms. -/
theorem Describes.quadratic [IsProbabilityMeasure P] (hX : Describes P X g) (M : Matrix (Fin n) (Fin n) ℝ) (c : Fin n → ℝ) :
    Integrable (fun ω => (X ω - c) ⬝ᵥ (M *ᵥ (X ω - c))) P ∧
    ∫ ω, (X ω - c) ⬝ᵥ (M *ᵥ (X ω - c)) ∂P = (M * g.var).trace + (g.mean - c) ⬝ᵥ (M *ᵥ (g.mean - c)) := by
  obtain ⟨-, -, hd, -⟩ := (C38_const c).1 hX
  have hi : ∀ i j, Integrable (fun ω => M i j * ((X ω - c) i * (X ω - c) j)) P := fun i j =>
    ((hd.memLp i).integrable_mul (hd.memLp j)).const_mul _
  have e : ∀ v : Fin n → ℝ, v ⬝ᵥ (M *ᵥ v) = ∑ i, ∑ j, M i j * (v i * v j) := fun v => by
    simp only [dotProduct, Matrix.mulVec, Finset.mul_sum]
    exact Finset.sum_congr rfl fun i _ => Finset.sum_congr rfl fun j _ => by ring
  simp only [e]
  refine ⟨integrable_finsetSum _ fun i _ => integrable_finsetSum _ fun j _ => hi i j, ?_⟩
  rw [integral_finsetSum _ fun i _ => integrable_finsetSum _ fun j _ => hi i j]
  simp only [integral_finsetSum _ fun j _ => hi _ j, integral_const_mul, ← C38_m2 hd]
  simp only [Matrix.trace, Matrix.diag, Matrix.mul_apply, ← Finset.sum_add_distrib]
  refine Finset.sum_congr rfl fun i _ => Finset.sum_congr rfl fun j _ => ?_
  have hs : g.var j i = g.var i j := by rw [← hX.cov, covariance_comm, hX.cov]
  show M i j * (g.var i j + (g.mean i + (-c) i) * (g.mean j + (-c) j)) = M i j * g.var j i + M i j * ((g.mean i - c i) * (g.mean j - c j))
  rw [hs]
  simp only [Pi.neg_apply]
  ring

/-- Expectations of log-densities. -/
theorem Describes.logpdf [IsProbabilityMeasure P] (hX : Describes P X g) (h : Normal n) :
    Integrable (fun ω => h.logpdfFull (X ω)) P ∧ ∫ ω, h.logpdfFull (X ω) ∂P =
      -(Real.log h.var.det + n * Real.log (2 * Real.pi) + ((h.var⁻¹ * g.var).trace + (g.mean - h.mean) ⬝ᵥ (h.var⁻¹ *ᵥ (g.mean - h.mean)))) / 2 := by
  obtain ⟨hi, he⟩ := hX.quadratic h.var⁻¹ h.mean
  unfold Normal.logpdfFull
  refine ⟨(((integrable_const _).add hi).neg).div_const 2, ?_⟩
  rw [integral_div, integral_neg, integral_add (integrable_const _) hi, he]
  simp

/-- **C39.** The entropy is the expectation of the negative log-density. -/
theorem C39_entropy [IsProbabilityMeasure P] (hX : Describes P X g) (hp : g.var.PosDef) :
    g.entropy = ∫ ω, - g.logpdf (fun i => some (X ω i)) ∂P := by
  have e : ∀ x : Fin n → ℝ, g.logpdf (fun i => some (x i)) = g.logpdfFull x := fun x => by
    unfold Normal.logpdf
    rw [if_pos (by simp)]
    rfl
  simp only [e]
  rw [integral_neg, (hX.logpdf g).2, Matrix.nonsing_inv_mul _ (hp.isUnit.map detMonoidHom), Matrix.trace_one]
  unfold Normal.entropy
  simp
  ring

theorem measurable_logpdfFull (g : Normal n) : Measurable g.logpdfFull := by
  refine Continuous.measurable ?_
  unfold Normal.logpdfFull
  fun_prop

/-- `kl` is the expected difference of log-densities. -/
theorem kl_eq [IsProbabilityMeasure P] (hX : Describes P X g) (hg : g.var.PosDef) :
    ∫ ω, (g.logpdfFull (X ω) - h.logpdfFull (X ω)) ∂P = g.kl h := by
  rw [integral_sub (hX.logpdf g).1 (hX.logpdf h).1, (hX.logpdf g).2, (hX.logpdf h).2, Matrix.nonsing_inv_mul _ (hg.isUnit.map detMonoidHom),
    Matrix.trace_one]
  unfold Normal.kl
  have e : (h.mean - g.mean) ⬝ᵥ (h.var⁻¹ *ᵥ (h.mean - g.mean)) = (g.mean - h.mean) ⬝ᵥ (h.var⁻¹ *ᵥ (g.mean - h.mean)) := by
    rw [← neg_sub g.mean, Matrix.mulVec_neg, neg_dotProduct_neg]
  rw [e]
  simp
  ring

/-- **C39.** `kl` is the Kullback-Leibler divergence between the distributions, which is finite. -/
theorem C39_kl {Ω' : Type*} [MeasurableSpace Ω'] {Q : Measure Ω'} {Y : Ω' → Fin n → ℝ} (hX : IsNormal P X g) (hY : IsNormal Q Y h)
    (hg : g.var.PosDef) (hh : h.var.PosDef) :
    klDiv (P.map X) (Q.map Y) ≠ ∞ ∧ (klDiv (P.map X) (Q.map Y)).toReal = g.kl h := by
  have hP := hX.isProbabilityMeasure
  have hQ := hY.isProbabilityMeasure
  have hμ : IsProbabilityMeasure (P.map X) := Measure.isProbabilityMeasure_map hX.gaussian.aemeasurable
  have hν : IsProbabilityMeasure (Q.map Y) := Measure.isProbabilityMeasure_map hY.gaussian.aemeasurable
  have hr : Measurable fun x => ENNReal.ofReal (Real.exp (g.logpdfFull x - h.logpdfFull x)) :=
    ENNReal.measurable_ofReal.comp (Real.measurable_exp.comp ((measurable_logpdfFull g).sub (measurable_logpdfFull h)))
  have hd : P.map X = (Q.map Y).withDensity fun x => ENNReal.ofReal (Real.exp (g.logpdfFull x - h.logpdfFull x)) := by
    have hq : Measurable fun x => ENNReal.ofReal (Real.exp (h.logpdfFull x)) :=
      ENNReal.measurable_ofReal.comp (Real.measurable_exp.comp (measurable_logpdfFull h))
    rw [hY.withDensity hh, hX.withDensity hg, ← withDensity_mul _ hq hr]
    congr 1
    funext x
    rw [Pi.mul_apply, ← ENNReal.ofReal_mul (Real.exp_nonneg _), ← Real.exp_add]
    congr 2
    ring
  have hac : P.map X ≪ Q.map Y := by rw [hd]; exact withDensity_absolutelyContinuous _ _
  have hl : llr (P.map X) (Q.map Y) =ᵐ[P.map X] fun x => g.logpdfFull x - h.logpdfFull x := by
    have := hac.ae_le (Measure.rnDeriv_withDensity (Q.map Y) hr)
    rw [← hd] at this
    filter_upwards [this] with x hx
    rw [llr, hx, ENNReal.toReal_ofReal (Real.exp_nonneg _), Real.log_exp]
  have hm : AEStronglyMeasurable (fun x => g.logpdfFull x - h.logpdfFull x) (P.map X) :=
    ((measurable_logpdfFull g).sub (measurable_logpdfFull h)).aestronglyMeasurable
  have hi : Integrable (fun x => g.logpdfFull x - h.logpdfFull x) (P.map X) := by
    rw [integrable_map_measure hm hX.gaussian.aemeasurable]
    exact (hX.logpdf g).1.sub (hX.logpdf h).1
  refine ⟨klDiv_ne_top hac (hi.congr hl.symm), ?_⟩
  rw [toReal_klDiv_of_measure_eq hac (by simp), integral_congr_ae hl, integral_map hX.gaussian.aemeasurable hm]
  exact kl_eq hX.toDescribes hg

/-- **C39.** `kl` is not negative, and zero if and only if the normals are equal. -/
theorem C39_kl_zero (hg : g.var.PosDef) (hh : h.var.PosDef) : 0 ≤ g.kl h ∧ (g.kl h = 0 ↔ g.mean = h.mean ∧ g.var = h.var) := by
  have hX := Normal.isNormal_law hg.posSemidef
  have hY := Normal.isNormal_law hh.posSemidef
  obtain ⟨h1, h2⟩ := C39_kl hX hY hg hh
  have hP := hX.isProbabilityMeasure
  have hQ := hY.isProbabilityMeasure
  have hμ : IsProbabilityMeasure (g.law.map fun x => x.ofLp) := Measure.isProbabilityMeasure_map hX.gaussian.aemeasurable
  have hν : IsProbabilityMeasure (h.law.map fun x => x.ofLp) := Measure.isProbabilityMeasure_map hY.gaussian.aemeasurable
  refine ⟨h2 ▸ ENNReal.toReal_nonneg, fun h0 => ?_, fun ⟨hm, hv⟩ => ?_⟩
  · have hz : klDiv (g.law.map fun x => x.ofLp) (h.law.map fun x => x.ofLp) = 0 := by
      rcases (ENNReal.toReal_eq_zero_iff _).1 (h2.trans h0) with h | h
      · exact h
      · exact absurd h h1
    have he := klDiv_eq_zero_iff.1 hz
    have hs : ∀ i, AEStronglyMeasurable (fun x : Fin n → ℝ => x i) (g.law.map fun x => x.ofLp) :=
      fun i => (measurable_pi_apply i).aestronglyMeasurable
    have hs' : ∀ i, AEStronglyMeasurable (fun x : Fin n → ℝ => x i) (h.law.map fun x => x.ofLp) :=
      fun i => (measurable_pi_apply i).aestronglyMeasurable
    constructor
    · funext i
      rw [← hX.mean i, ← hY.mean i, ← integral_map hX.gaussian.aemeasurable (hs i), ← integral_map hY.gaussian.aemeasurable (hs' i), he]
    · ext i j
      rw [← hX.cov i j, ← hY.cov i j, ← covariance_map_fun (hs i) (hs j) hX.gaussian.aemeasurable,
        ← covariance_map_fun (hs' i) (hs' j) hY.gaussian.aemeasurable, he]
  · have : g = h := Normal.ext hm hv
    subst this
    rw [← h2, klDiv_self, ENNReal.toReal_zero]

/-! ## The Wasserstein distance -/

section
variable {A B : Matrix (Fin n) (Fin n) ℝ}

/-- The matrix of the optimal transport. -/
theorem exists_transport (hA : A.PosDef) (hB : B.PosDef) : ∃ T : Matrix (Fin n) (Fin n) ℝ, T.PosSemidef ∧ IsUnit T.det ∧ T * A * T = B ∧
    (T * A).trace = (CFC.sqrt (CFC.sqrt A * B * CFC.sqrt A)).trace ∧ (T⁻¹ * B).trace = (CFC.sqrt (CFC.sqrt A * B * CFC.sqrt A)).trace := by
  have hR : CFC.sqrt A * CFC.sqrt A = A := CFC.sqrt_mul_sqrt_self A (Matrix.nonneg_iff_posSemidef.2 hA.posSemidef)
  have hRp : (CFC.sqrt A).PosSemidef := Matrix.nonneg_iff_posSemidef.1 (CFC.sqrt_nonneg A)
  have hRt : (CFC.sqrt A)ᴴ = CFC.sqrt A := hRp.1
  have hRu : IsUnit (CFC.sqrt A).det := by
    have : IsUnit A.det := hA.isUnit.map detMonoidHom
    rw [← hR, Matrix.det_mul] at this
    exact isUnit_of_mul_isUnit_left this
  generalize CFC.sqrt A = R at *
  have hM : (R * B * R).PosSemidef := by
    have := hB.posSemidef.mul_mul_conjTranspose_same R
    rwa [hRt] at this
  have hS : CFC.sqrt (R * B * R) * CFC.sqrt (R * B * R) = R * B * R := CFC.sqrt_mul_sqrt_self _ (Matrix.nonneg_iff_posSemidef.2 hM)
  have hSp : (CFC.sqrt (R * B * R)).PosSemidef := Matrix.nonneg_iff_posSemidef.1 (CFC.sqrt_nonneg _)
  have hSu : IsUnit (CFC.sqrt (R * B * R)).det := by
    have : IsUnit (R * B * R).det := by
      rw [Matrix.det_mul, Matrix.det_mul]
      exact (hRu.mul (hB.isUnit.map detMonoidHom)).mul hRu
    rw [← hS, Matrix.det_mul] at this
    exact isUnit_of_mul_isUnit_left this
  generalize CFC.sqrt (R * B * R) = S at *
  have hiR : R⁻¹ * R = 1 := Matrix.nonsing_inv_mul _ hRu
  have hRi : R * R⁻¹ = 1 := Matrix.mul_nonsing_inv _ hRu
  have hTA : R⁻¹ * S * R⁻¹ * A = R⁻¹ * S * R := by
    rw [← hR, Matrix.mul_assoc, ← Matrix.mul_assoc R⁻¹ R R, hiR, Matrix.one_mul]
  have hTu : IsUnit (R⁻¹ * S * R⁻¹).det := by
    rw [Matrix.det_mul, Matrix.det_mul]
    exact ((Matrix.isUnit_nonsing_inv_det _ hRu).mul hSu).mul (Matrix.isUnit_nonsing_inv_det _ hRu)
  have htr : (R⁻¹ * S * R⁻¹ * A).trace = S.trace := by
    rw [hTA, Matrix.trace_mul_comm, ← Matrix.mul_assoc, hRi, Matrix.one_mul]
  have hB : R⁻¹ * S * R⁻¹ * A * (R⁻¹ * S * R⁻¹) = B := by
    rw [hTA]
    calc R⁻¹ * S * R * (R⁻¹ * S * R⁻¹) = R⁻¹ * S * (R * R⁻¹) * S * R⁻¹ := by simp only [Matrix.mul_assoc]
      _ = R⁻¹ * (S * S) * R⁻¹ := by rw [hRi, Matrix.mul_one, Matrix.mul_assoc R⁻¹ S S]
      _ = (R⁻¹ * R) * B * (R * R⁻¹) := by rw [hS]; simp only [Matrix.mul_assoc]
      _ = B := by rw [hiR, hRi, Matrix.one_mul, Matrix.mul_one]
  refine ⟨R⁻¹ * S * R⁻¹, ?_, hTu, hB, htr, ?_⟩
  · have := hSp.mul_mul_conjTranspose_same R⁻¹
    rwa [Matrix.conjTranspose_nonsing_inv, hRt] at this
  · conv_lhs => rw [← hB]
    rw [Matrix.mul_assoc _ A, ← Matrix.mul_assoc, Matrix.nonsing_inv_mul _ hTu, Matrix.one_mul, Matrix.trace_mul_comm, htr]

end

/-- The squared distance, before it is made non-negative. -/
noncomputable def w2Sq (g h : Normal n) : ℝ :=
  ∑ i, (g.mean i - h.mean i) ^ 2 + (g.var.trace + h.var.trace - 2 * (CFC.sqrt (CFC.sqrt g.var * h.var * CFC.sqrt g.var)).trace)

theorem integral_combination [IsProbabilityMeasure P] {a b c p q : Ω → ℝ} {k : ℝ} (ha : Integrable a P) (hb : Integrable b P)
    (hc : Integrable c P) (hp : Integrable p P) (hq : Integrable q P) :
    ∫ ω, (k + (a ω + b ω - 2 * c ω) + 2 * (p ω - q ω)) ∂P =
      k + (∫ ω, a ω ∂P + ∫ ω, b ω ∂P - 2 * ∫ ω, c ω ∂P) + 2 * (∫ ω, p ω ∂P - ∫ ω, q ω ∂P) := by
  have h1 : Integrable (fun ω => a ω + b ω) P := ha.add hb
  have h2 : Integrable (fun ω => 2 * c ω) P := hc.const_mul 2
  have h3 : Integrable (fun ω => a ω + b ω - 2 * c ω) P := h1.sub h2
  have h4 : Integrable (fun ω => k + (a ω + b ω - 2 * c ω)) P := (integrable_const k).add h3
  have h5 : Integrable (fun ω => p ω - q ω) P := hp.sub hq
  rw [integral_add h4 (h5.const_mul 2), integral_add (integrable_const k) h3, integral_sub h1 h2, integral_add ha hb, integral_const_mul,
    integral_const_mul, integral_sub hp hq]
  simp

/-- The expected squared distance of two random vectors. -/
theorem distance_eq [IsProbabilityMeasure P] {Y : Ω → Fin n → ℝ} (hX : Describes P X g) (hY : Describes P Y h) {T : Matrix (Fin n) (Fin n) ℝ}
    (hT : T.PosSemidef) (hu : IsUnit T.det) :
    Integrable (fun ω => (X ω - g.mean - T⁻¹ *ᵥ (Y ω - h.mean)) ⬝ᵥ (T *ᵥ (X ω - g.mean - T⁻¹ *ᵥ (Y ω - h.mean)))) P ∧
    ∫ ω, ∑ i, (X ω i - Y ω i) ^ 2 ∂P = ∑ i, (g.mean i - h.mean i) ^ 2 + (g.var.trace + h.var.trace - ((T * g.var).trace + (T⁻¹ * h.var).trace)) +
      ∫ ω, (X ω - g.mean - T⁻¹ *ᵥ (Y ω - h.mean)) ⬝ᵥ (T *ᵥ (X ω - g.mean - T⁻¹ *ᵥ (Y ω - h.mean))) ∂P := by
  have hs : Tᵀ = T := hT.1
  have hpt : ∀ x y : Fin n → ℝ, (x - T⁻¹ *ᵥ y) ⬝ᵥ (T *ᵥ (x - T⁻¹ *ᵥ y)) = x ⬝ᵥ (T *ᵥ x) + y ⬝ᵥ (T⁻¹ *ᵥ y) - 2 * (x ⬝ᵥ y) := by
    intro x y
    have h1 : T *ᵥ (T⁻¹ *ᵥ y) = y := by rw [Matrix.mulVec_mulVec, Matrix.mul_nonsing_inv _ hu, Matrix.one_mulVec]
    have h2 : (T⁻¹ *ᵥ y) ⬝ᵥ (T *ᵥ x) = y ⬝ᵥ x := by
      rw [Matrix.dotProduct_mulVec, ← Matrix.mulVec_transpose, hs, h1]
    rw [Matrix.mulVec_sub, h1, sub_dotProduct, dotProduct_sub, dotProduct_sub, h2, dotProduct_comm y x, dotProduct_comm (T⁻¹ *ᵥ y) y]
    ring
  have hXq := hX.quadratic T g.mean
  have hYq := hY.quadratic T⁻¹ h.mean
  have hX1 := hX.quadratic 1 g.mean
  have hY1 := hY.quadratic 1 h.mean
  simp only [Matrix.one_mulVec, Matrix.one_mul, sub_self, zero_dotProduct, add_zero] at hX1 hY1 hXq hYq
  have hXm : ∀ i, MemLp (fun ω => (X ω - g.mean) i) 2 P := ((C38_const g.mean).1 hX).2.2.1.memLp
  have hYm : ∀ i, MemLp (fun ω => (Y ω - h.mean) i) 2 P := ((C38_const h.mean).1 hY).2.2.1.memLp
  have hXY : Integrable (fun ω => (X ω - g.mean) ⬝ᵥ (Y ω - h.mean)) P :=
    integrable_finsetSum _ fun i _ => (hXm i).integrable_mul (hYm i)
  have hl : ∀ (Z : Ω → Fin n → ℝ) (f : Normal n), Describes P Z f → Integrable (fun ω => (g.mean - h.mean) ⬝ᵥ (Z ω - f.mean)) P ∧
      ∫ ω, (g.mean - h.mean) ⬝ᵥ (Z ω - f.mean) ∂P = 0 := by
    intro Z f hZ
    have hi : ∀ i, Integrable (fun ω => (g.mean - h.mean) i * (Z ω - f.mean) i) P := fun i =>
      ((((C38_const f.mean).1 hZ).2.2.1.memLp i).integrable (by norm_num)).const_mul _
    refine ⟨integrable_finsetSum _ fun i _ => hi i, ?_⟩
    show ∫ ω, ∑ i, (g.mean - h.mean) i * (Z ω - f.mean) i ∂P = 0
    rw [integral_finsetSum _ fun i _ => hi i]
    refine Finset.sum_eq_zero fun i _ => ?_
    rw [integral_const_mul, ((C38_const f.mean).1 hZ).2.2.1.mean i]
    simp [Normal.subVec, Normal.addVec]
  have hLX := hl X g hX
  have hLY := hl Y h hY
  simp only [hpt]
  refine ⟨(hXq.1.add hYq.1).sub (hXY.const_mul 2), ?_⟩
  have e : ∀ ω, ∑ i, (X ω i - Y ω i) ^ 2 = (∑ i, (g.mean i - h.mean i) ^ 2 + ((X ω - g.mean) ⬝ᵥ (X ω - g.mean) +
      (Y ω - h.mean) ⬝ᵥ (Y ω - h.mean) - 2 * ((X ω - g.mean) ⬝ᵥ (Y ω - h.mean)))) + 2 * ((g.mean - h.mean) ⬝ᵥ (X ω - g.mean) -
      (g.mean - h.mean) ⬝ᵥ (Y ω - h.mean)) := by
    intro ω
    simp only [dotProduct, ← Finset.sum_add_distrib, Finset.mul_sum, ← Finset.sum_sub_distrib]
    refine Finset.sum_congr rfl fun i _ => ?_
    simp only [Pi.sub_apply]
    ring
  simp only [e]
  rw [integral_combination hX1.1 hY1.1 hXY hLX.1 hLY.1, hX1.2, hY1.2, hLX.2, hLY.2]
  have e2 := integral_combination (k := 0) hXq.1 hYq.1 hXY (integrable_const (0 : ℝ)) (integrable_const (0 : ℝ))
  simp only [zero_add, sub_zero, mul_zero, add_zero, integral_zero, hXq.2, hYq.2] at e2
  rw [e2]
  ring

theorem w2Sq_le [IsProbabilityMeasure P] {Y : Ω → Fin n → ℝ} (hX : Describes P X g) (hY : Describes P Y h) (hg : g.var.PosDef)
    (hh : h.var.PosDef) : w2Sq g h ≤ ∫ ω, ∑ i, (X ω i - Y ω i) ^ 2 ∂P := by
  obtain ⟨T, hT, hu, -, h1, h2⟩ := exists_transport hg hh
  rw [(distance_eq hX hY hT hu).2, h1, h2]
  have : 0 ≤ ∫ ω, (X ω - g.mean - T⁻¹ *ᵥ (Y ω - h.mean)) ⬝ᵥ (T *ᵥ (X ω - g.mean - T⁻¹ *ᵥ (Y ω - h.mean))) ∂P :=
    integral_nonneg fun ω => hT.dotProduct_mulVec_nonneg _
  unfold w2Sq
  linarith

theorem w2Sq_attained (hX : IsNormal P X g) (hg : g.var.PosDef) (hh : h.var.PosDef) :
    ∃ Y : Ω → Fin n → ℝ, IsNormal P Y h ∧ ∫ ω, ∑ i, (X ω i - Y ω i) ^ 2 ∂P = w2Sq g h := by
  have := hX.isProbabilityMeasure
  obtain ⟨T, hT, hu, hB, h1, h2⟩ := exists_transport hg hh
  have hY : IsNormal P (fun ω => T *ᵥ X ω + (h.mean - T *ᵥ g.mean)) h := by
    refine (hX.affine T (h.mean - T *ᵥ g.mean)).congr rfl (Normal.ext ?_ ?_)
    · simp
    · rw [← hB]
      show _ = T * g.var * Tᵀ
      rw [show Tᵀ = T from hT.1]
  refine ⟨_, hY, ?_⟩
  rw [(distance_eq hX.toDescribes hY.toDescribes hT hu).2, h1, h2]
  have e : ∀ ω, X ω - g.mean - T⁻¹ *ᵥ (T *ᵥ X ω + (h.mean - T *ᵥ g.mean) - h.mean) = 0 := fun ω => by
    rw [show T *ᵥ X ω + (h.mean - T *ᵥ g.mean) - h.mean = T *ᵥ (X ω - g.mean) by rw [Matrix.mulVec_sub]; abel, Matrix.mulVec_mulVec,
      Matrix.nonsing_inv_mul _ hu, Matrix.one_mulVec, sub_self]
  simp only [e, zero_dotProduct, integral_zero]
  unfold w2Sq
  ring

theorem w2Sq_nonneg (hg : g.var.PosDef) (hh : h.var.PosDef) : 0 ≤ w2Sq g h := by
  obtain ⟨Y, -, e⟩ := w2Sq_attained (Normal.isNormal_law hg.posSemidef) hg hh
  rw [← e]
  exact integral_nonneg fun ω => Finset.sum_nonneg fun i _ => sq_nonneg _

theorem w2_sq (hg : g.var.PosDef) (hh : h.var.PosDef) : g.w2 h ^ 2 = w2Sq g h :=
  (Real.sq_sqrt (le_max_right _ _)).trans (max_eq_left (w2Sq_nonneg hg hh))

/-- **C39.** `w2` is the 2-Wasserstein distance: its square is at most the expected squared distance of any two random vectors with the
means and variances on a common probability space, and equal to that of some Gaussian random vectors. -/
theorem C39_w2 (hg : g.var.PosDef) (hh : h.var.PosDef) : 0 ≤ g.w2 h ∧
    (∀ (Ω : Type) (_ : MeasurableSpace Ω) (P : Measure Ω) (_ : IsProbabilityMeasure P) (X Y : Ω → Fin n → ℝ), Describes P X g → Describes P Y h →
      g.w2 h ^ 2 ≤ ∫ ω, ∑ i, (X ω i - Y ω i) ^ 2 ∂P) ∧
    ∃ (Ω : Type) (_ : MeasurableSpace Ω) (P : Measure Ω) (X Y : Ω → Fin n → ℝ), IsNormal P X g ∧ IsNormal P Y h ∧
      g.w2 h ^ 2 = ∫ ω, ∑ i, (X ω i - Y ω i) ^ 2 ∂P := by
  rw [w2_sq hg hh]
  have hX := Normal.isNormal_law hg.posSemidef
  obtain ⟨Y, hY, e⟩ := w2Sq_attained hX hg hh
  exact ⟨Real.sqrt_nonneg _, fun Ω _ P _ X Y hX hY => w2Sq_le hX hY hg hh, _, _, _, _, Y, hX, hY, e.symm⟩

/-- **C39.** `w2` is symmetric. -/
theorem C39_w2_symm (hg : g.var.PosDef) (hh : h.var.PosDef) : g.w2 h = h.w2 g := by
  have key : ∀ {g h : Normal n}, g.var.PosDef → h.var.PosDef → g.w2 h ≤ h.w2 g := by
    intro g h hg hh
    obtain ⟨h0, -, Ω, _, P, X, Y, hX, hY, e⟩ := C39_w2 hh hg
    have := hX.isProbabilityMeasure
    have h1 := (C39_w2 hg hh).2.1 Ω _ P this Y X hY.toDescribes hX.toDescribes
    refine le_of_sq_le_sq ?_ h0
    rw [e]
    refine h1.trans (le_of_eq (integral_congr_ae (ae_of_all _ fun ω => Finset.sum_congr rfl fun i _ => ?_)))
    ring
  exact le_antisymm (key hg hh) (key hh hg)

/-- **C39.** `w2` is zero if and only if the normals are equal. -/
theorem C39_w2_zero (hg : g.var.PosDef) (hh : h.var.PosDef) : g.w2 h = 0 ↔ g.mean = h.mean ∧ g.var = h.var := by
  constructor
  · intro h0
    obtain ⟨-, -, Ω, _, P, X, Y, hX, hY, e⟩ := C39_w2 hg hh
    have := hX.isProbabilityMeasure
    rw [h0, sq, mul_zero] at e
    have hm : ∀ i, MemLp (fun ω => X ω i - Y ω i) 2 P := fun i => (hX.memLp i).sub (hY.memLp i)
    have hi : Integrable (fun ω => ∑ i, (X ω i - Y ω i) ^ 2) P := integrable_finsetSum _ fun i _ => (hm i).integrable_sq
    have hz := (integral_eq_zero_iff_of_nonneg (fun ω => Finset.sum_nonneg fun i _ => sq_nonneg _) hi).1 e.symm
    have hae : ∀ i, (fun ω => X ω i) =ᵐ[P] fun ω => Y ω i := fun i => by
      filter_upwards [hz] with ω hω
      have := (Finset.sum_eq_zero_iff_of_nonneg (fun i _ => sq_nonneg _)).1 hω i (Finset.mem_univ i)
      exact sub_eq_zero.1 ((pow_eq_zero_iff two_ne_zero).1 this)
    refine ⟨funext fun i => ?_, Matrix.ext fun i j => ?_⟩
    · rw [← hX.mean i, ← hY.mean i, integral_congr_ae (hae i)]
    · rw [← hX.cov i j, ← hY.cov i j, covariance_eq_sub (hX.memLp i) (hX.memLp j), covariance_eq_sub (hY.memLp i) (hY.memLp j),
        integral_congr_ae (hae i), integral_congr_ae (hae j), integral_congr_ae ((hae i).mul (hae j))]
  · rintro ⟨hm, hv⟩
    have : g = h := Normal.ext hm hv
    subst this
    have hX := Normal.isNormal_law hg.posSemidef
    have := hX.isProbabilityMeasure
    have h1 := (C39_w2 hg hg).2.1 _ _ _ this _ _ hX.toDescribes hX.toDescribes
    simp only [sub_self, ne_eq, OfNat.ofNat_ne_zero, not_false_eq_true, zero_pow, Finset.sum_const_zero, integral_zero] at h1
    exact (pow_eq_zero_iff two_ne_zero).1 (le_antisymm h1 (sq_nonneg _))

/-- Two normals that differ in mean and variance. -/
example : 0 < (⟨![0, 0], 1⟩ : Normal 2).kl ⟨![1, 3], !![2, 1; 1, 2]⟩ ∧ 0 < (⟨![0, 0], 1⟩ : Normal 2).w2 ⟨![1, 3], !![2, 1; 1, 2]⟩ := by
  have hp : (!![2, 1; 1, 2] : Matrix (Fin 2) (Fin 2) ℝ).PosDef := by
    refine posSemidef_corr.posDef_iff_det_ne_zero.2 ?_
    simp [Matrix.det_fin_two]
    norm_num
  have h1 : (⟨![0, 0], 1⟩ : Normal 2).var.PosDef := Matrix.PosDef.one
  have ne : (⟨![0, 0], 1⟩ : Normal 2).mean ≠ ![1, 3] := fun e => by simpa using congrFun e 0
  constructor
  · exact lt_of_le_of_ne (C39_kl_zero h1 hp).1 fun e => ne ((C39_kl_zero h1 hp).2.1 e.symm).1
  · exact lt_of_le_of_ne (C39_w2 h1 hp).1 fun e => ne ((C39_w2_zero h1 hp).1 e.symm).1

end Stheno
