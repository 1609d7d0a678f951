import Verif.Coverage
import Verif.Props.Normal
import Verif.Props.Conditional
import Verif.Props.Jitter

/-!
# C35: credible bounds contain 95% of the probability
-/

namespace Stheno

open Matrix MeasureTheory ProbabilityTheory

variable {n : ℕ} {Ω : Type*} [MeasurableSpace Ω] {P : Measure Ω} {X : Ω → Fin n → ℝ} {g : Normal n}

/-- Entries of Gaussian vectors are the mean plus a multiple of a standard Gaussian. -/
theorem IsNormal.entry (hX : IsNormal P X g) (i : Fin n) :
    P.map (fun ω => X ω i) = (gaussianReal 0 1).map fun z => g.mean i + √(g.var i i) * z := by
  have := hX.isProbabilityMeasure
  have hv : 0 ≤ g.var i i := by
    rw [← hX.cov, covariance_self (hX.memLp i).aemeasurable]
    exact variance_nonneg _ _
  rw [(hX.gaussian.eval i).map_eq_gaussianReal, hX.mean, ← covariance_self (hX.memLp i).aemeasurable, hX.cov]
  have e : (fun z => g.mean i + √(g.var i i) * z) = (fun z => g.mean i + z) ∘ fun z => √(g.var i i) * z := rfl
  rw [e, ← Measure.map_map (by fun_prop) (by fun_prop), gaussianReal_map_const_mul, gaussianReal_map_const_add]
  congr 1
  · simp
  · ext
    simp [Real.sq_sqrt hv, hv]

/-- **C35, coverage.** The probability that an entry of a Gaussian vector is within the credible bounds is 95%, and it is as likely to be below as to be above them. -/
theorem C35_coverage (hX : IsNormal P X g) (i : Fin n) (hv : 0 < g.var i i) :
    (0.95 ≤ P.real {ω | g.bounds.2.1 i ≤ X ω i ∧ X ω i ≤ g.bounds.2.2 i} ∧ P.real {ω | g.bounds.2.1 i ≤ X ω i ∧ X ω i ≤ g.bounds.2.2 i} ≤ 0.95001) ∧
    P.real {ω | X ω i < g.bounds.2.1 i} = P.real {ω | g.bounds.2.2 i < X ω i} := by
  have hm : AEMeasurable (fun ω => X ω i) P := (hX.memLp i).aemeasurable
  have hs : 0 < √(g.var i i) := Real.sqrt_pos.2 hv
  have key : ∀ s, MeasurableSet s → P.real {ω | X ω i ∈ s} = (gaussianReal 0 1).real {z | g.mean i + √(g.var i i) * z ∈ s} := by
    intro s h
    have := congrArg (fun μ : Measure ℝ => μ.real s) (hX.entry i)
    simp only [measureReal_def] at this ⊢
    rwa [Measure.map_apply_of_aemeasurable hm h, Measure.map_apply (by fun_prop) h] at this
  have el : g.bounds.2.1 i = g.mean i - 1.96 * √(g.var i i) := by
    show g.mean i - 1.96 * √(max (g.var i i) 0) = _
    rw [max_eq_left hv.le]
  have eu : g.bounds.2.2 i = g.mean i + 1.96 * √(g.var i i) := by
    show g.mean i + 1.96 * √(max (g.var i i) 0) = _
    rw [max_eq_left hv.le]
  refine ⟨?_, ?_⟩
  · have h1 := key (Set.Icc (g.bounds.2.1 i) (g.bounds.2.2 i)) measurableSet_Icc
    have h2 : {z | g.mean i + √(g.var i i) * z ∈ Set.Icc (g.bounds.2.1 i) (g.bounds.2.2 i)} = Set.Icc (-1.96) 1.96 := by
      ext z
      simp only [Set.mem_ofPred_eq, Set.mem_Icc, el, eu]
      constructor
      · rintro ⟨a, b⟩
        exact ⟨by nlinarith, by nlinarith⟩
      · rintro ⟨a, b⟩
        exact ⟨by nlinarith, by nlinarith⟩
    rw [h2] at h1
    have h3 : {ω | g.bounds.2.1 i ≤ X ω i ∧ X ω i ≤ g.bounds.2.2 i} = {ω | X ω i ∈ Set.Icc (g.bounds.2.1 i) (g.bounds.2.2 i)} := rfl
    rw [h3, h1]
    exact gauss_coverage
  · have h1 := key (Set.Iio (g.bounds.2.1 i)) measurableSet_Iio
    have h2 := key (Set.Ioi (g.bounds.2.2 i)) measurableSet_Ioi
    have h3 : {z | g.mean i + √(g.var i i) * z ∈ Set.Iio (g.bounds.2.1 i)} = (fun z => -z) ⁻¹' {z | g.mean i + √(g.var i i) * z ∈ Set.Ioi (g.bounds.2.2 i)} := by
      ext z
      simp only [Set.mem_ofPred_eq, Set.mem_Iio, Set.mem_Ioi, Set.mem_preimage, el, eu]
      constructor <;> intro h <;> linarith
    refine h1.trans (Eq.trans ?_ h2.symm)
    have hs : MeasurableSet {z | g.mean i + √(g.var i i) * z ∈ Set.Ioi (g.bounds.2.2 i)} :=
      (show Measurable fun z => g.mean i + √(g.var i i) * z by fun_prop) measurableSet_Ioi
    have h4 := Measure.map_apply (μ := gaussianReal 0 1) (f := fun z => -z) (by fun_prop) hs
    rw [gaussianReal_map_neg, neg_zero] at h4
    rw [h3, measureReal_def, measureReal_def, h4]

/-- **C35, no variance.** Without variance, the bounds are the mean, which is the value almost surely. -/
theorem C35_coverage_zero (hX : IsNormal P X g) (i : Fin n) (hv : g.var i i = 0) :
    g.bounds.2.1 i = g.mean i ∧ g.bounds.2.2 i = g.mean i ∧ ∀ᵐ ω ∂P, X ω i = g.mean i := by
  refine ⟨?_, ?_, ?_⟩
  · show g.mean i - 1.96 * √(max (g.var i i) 0) = _
    simp [hv]
  · show g.mean i + 1.96 * √(max (g.var i i) 0) = _
    simp [hv]
  · have := hX.isProbabilityMeasure
    have h0 : Var[fun ω => X ω i; P] = 0 := by
      rw [← covariance_self (hX.memLp i).aemeasurable, hX.cov, hv]
    have h1 : evariance (fun ω => X ω i) P = 0 := by
      rw [← (hX.memLp i).ofReal_variance_eq, h0, ENNReal.ofReal_zero]
    filter_upwards [(evariance_eq_zero_iff (hX.memLp i).aemeasurable).1 h1] with ω h
    rw [h, hX.mean]

section
variable {ops before : List Op} {m m' : MId} {p : PId} {z : Input} {T : PId → Input → Prop} {size : PId → Input → ℕ}
  {Φ : PId × Input × ℕ → Ω → ℝ} {noise : Mat}

/-- **C35, posteriors.** As in `C17_conditional`, let `Φ` be a Gaussian process with the means and covariances of a measure, observed with independent Gaussian noise.
Given that the observation is `y`, values of the process are with probability 95% within 1.96 standard deviations of the mean, with the means and variances
of the posterior measure. -/
theorem C35_posterior [IsFiniteMeasure P] (h : Models P (runOps before {}) m T size Φ) {N : Ω → Fin (size p z) → ℝ}
    (hN : IsNoise P Φ (noise.sq (size p z)) N) (hz : numElements z ≠ 0) (hT : T p z) (hr : noise.r = size p z) (hc : noise.c = size p z)
    {K : Mat} (hK : ObsMat (runOps before {}) m p z noise K) (hp : (K.sq K.r).PosDef) {ops : (Fin (size p z) → ℝ) → List Op}
    (g : ∀ y, Gives (ops y) before m (.exact p z noise (List.ofFn y)) m') {k : ℕ} {e : Fin k → PId × Input × ℕ}
    (he : ∀ a, T (e a).1 (e a).2.1 ∧ (e a).2.2 < size (e a).1 (e a).2.1 ∧ (e a).2.1.IsAtom ∧ Attached (runOps before {}) m (e a).1) :
    ∀ᵐ y ∂P.map (observed Φ p z N), ∀ a v A, MeanCall (runOps (ops y) {}) m' (e a).1 (e a).2.1 v →
      KernelCall (runOps (ops y) {}) m' (e a).1 (e a).1 (e a).2.1 (e a).2.1 A → 0 < A.e (e a).2.2 (e a).2.2 →
      let mean := v.getD (e a).2.2 0
      let error := 1.96 * √(A.e (e a).2.2 (e a).2.2)
      let prob := (condDistrib (fun ω => WithLp.toLp 2 fun a => Φ (e a) ω) (observed Φ p z N) P y).real {x | mean - error ≤ x a ∧ x a ≤ mean + error}
      0.95 ≤ prob ∧ prob ≤ 0.95001 := by
  obtain ⟨post, h1, h2, h3, h4, -⟩ := C17_conditional h hN hz hT hr hc hK hp g he
  filter_upwards [h4] with y hy a v A hv hA h0
  obtain ⟨v', hv', ev⟩ := h1 y a
  obtain ⟨A', hA', -, -, eA⟩ := h2 y a a
  cases hv.unique hv'
  cases hA.unique hA'
  have := (C35_coverage (Normal.isNormal_law (h3 y)) a (eA ▸ h0)).1
  have eb : ((post y).bounds.2.1 a = v.getD (e a).2.2 0 - 1.96 * √(A.e (e a).2.2 (e a).2.2)) ∧
      ((post y).bounds.2.2 a = v.getD (e a).2.2 0 + 1.96 * √(A.e (e a).2.2 (e a).2.2)) := by
    rw [List.getD_eq_getElem?_getD, ev, eA, Option.getD_some]
    rw [eA] at h0
    constructor
    · show (post y).mean a - 1.96 * √(max ((post y).var a a) 0) = _
      rw [max_eq_left h0.le]
    · show (post y).mean a + 1.96 * √(max ((post y).var a a) 0) = _
      rw [max_eq_left h0.le]
  rw [eb.1, eb.2] at this
  rw [hy]
  exact this

end

/-- A Gaussian variable with mean 1 and variance 4 is within the bounds with probability 95%. -/
example : 0.95 ≤ (⟨![1], !![4]⟩ : Normal 1).law.real {x | (1 - 1.96 * 2 : ℝ) ≤ x 0 ∧ x 0 ≤ 1 + 1.96 * 2} := by
  have hp : (!![4] : Matrix (Fin 1) (Fin 1) ℝ).PosSemidef := by
    have : (!![4] : Matrix (Fin 1) (Fin 1) ℝ) = diagonal fun _ => 4 := by
      ext i j; fin_cases i; fin_cases j; simp
    rw [this]
    exact PosSemidef.diagonal fun _ => by norm_num
  have := (C35_coverage (Normal.isNormal_law (g := ⟨![1], !![4]⟩) hp) 0 (by simp)).1.1
  have e : √(max (4 : ℝ) 0) = 2 := by
    rw [max_eq_left (by norm_num), show (4 : ℝ) = 2 ^ 2 by norm_num, Real.sqrt_sq (by norm_num)]
  have el : (⟨![1], !![4]⟩ : Normal 1).bounds.2.1 0 = 1 - 1.96 * 2 := congrArg (fun t : ℝ => 1 - 1.96 * t) e
  have eu : (⟨![1], !![4]⟩ : Normal 1).bounds.2.2 0 = 1 + 1.96 * 2 := congrArg (fun t : ℝ => 1 + 1.96 * t) e
  rw [el, eu] at this
  exact this

/-- A constant process with variance 1, observed to be `y` with noise 1. -/
noncomputable def flatLook (y : Fin 1 → ℝ) : List Op :=
  [.gp .zero (.prim fun _ _ => 1) none none] ++ [.condition 0 (.exact 0 (.num [[0]]) ⟨1, 1, fun _ _ => 1⟩ (List.ofFn y))]

theorem flatLook_gives (y : Fin 1 → ℝ) : Gives (flatLook y) [.gp .zero (.prim fun _ _ => 1) none none] 0 (.exact 0 (.num [[0]]) ⟨1, 1, fun _ _ => 1⟩ (List.ofFn y)) 1 :=
  ⟨⟨[], rfl⟩, (by decide : 0 < 1), rfl⟩

/-- The variance of the posterior is one half. -/
theorem flatLook_kernel (y : Fin 1 → ℝ) : ∃ A, KernelCall (runOps (flatLook y) {}) 1 0 0 (.num [[1]]) (.num [[1]]) A ∧ A.e 0 0 = 1 / 2 := by
  have e : ((⟨1, 1, fun _ _ => 1 + 1⟩ : Mat).sq 1) = (2 : ℝ) • 1 := by
    rw [single_sq]; norm_num
  refine ⟨_, (flatLook_gives y).kernel_call_of (x := .num [[1]]) (x' := .num [[1]]) (i := 0) (j := 0) (K := ⟨1, 1, fun _ _ => 1 + 1⟩) (by decide) (attached_iff.2 rfl) (attached_iff.2 rfl) trivial trivial
    ⟨.prim fun _ _ => 1, 1, rfl, rfl⟩ ⟨⟨1, 1, fun _ _ => 1⟩, ⟨.prim fun _ _ => 1, 1, rfl, rfl⟩, rfl, rfl⟩ ?_ ⟨.prim fun _ _ => 1, 1, rfl, rfl⟩
    ⟨.prim fun _ _ => 1, 1, rfl, rfl⟩ rfl rfl rfl rfl, ?_⟩
  · show ((⟨1, 1, fun _ _ => 1 + 1⟩ : Mat).sq 1).PosDef
    rw [e]
    exact smul_one_posDef (by norm_num)
  · show (1 : ℝ) - ∑ a : Fin 1, ∑ b : Fin 1, 1 * ((⟨1, 1, fun _ _ => 1 + 1⟩ : Mat).sq 1)⁻¹ a b * 1 = _
    rw [e, Matrix.inv_def]
    simp
    norm_num

/-- C35 for `flatLook`: whatever is observed, the process is within 1.96 standard deviations, which are square roots of 1/2, of the posterior mean with
probability 95%. -/
example : ∃ (k : ℕ) (P : Measure (EuclideanSpace ℝ (Fin k) × EuclideanSpace ℝ (Fin 1))) (_ : IsFiniteMeasure P)
    (Φ : PId × Input × ℕ → _ → ℝ) (Z : _ → Fin 1 → ℝ), ∀ᵐ y ∂P.map Z, ∃ v, MeanCall (runOps (flatLook y) {}) 1 0 (.num [[1]]) v ∧
      0.95 ≤ (condDistrib (fun ω => WithLp.toLp 2 fun _ : Fin 1 => Φ (0, .num [[1]], 0) ω) Z P y).real
        {x | v.getD 0 0 - 1.96 * √(1 / 2) ≤ x 0 ∧ x 0 ≤ v.getD 0 0 + 1.96 * √(1 / 2)} := by
  have hl : ∀ e ∈ [((0 : PId), [[(0 : ℝ)]]), (0, [[1]])], Attached (runOps [.gp .zero (.prim fun _ _ => 1) none none] {}) 0 e.1 ∧ Rows (fun _ => True) e.2 := by
    intro e he
    simp only [List.mem_cons, List.not_mem_nil, or_false] at he
    rcases he with rfl | rfl <;> exact ⟨attached_iff.2 rfl, .one trivial⟩
  have hn : ((⟨1, 1, fun _ _ => 1⟩ : Mat).sq 1).PosSemidef := by
    rw [single_sq]
    exact (smul_one_posDef one_pos).posSemidef
  obtain ⟨k, P, Φ, N, hM, hN⟩ := C17_exists flat_solid.regular _ hl hn
  have hfin := hM.gaussian.isProbabilityMeasure
  have hT : ∃ xs, Input.num [[0]] = .num xs ∧ ((0 : PId), xs) ∈ [((0 : PId), [[(0 : ℝ)]]), (0, [[1]])] := ⟨_, rfl, by simp⟩
  have hT' : ∃ xs, Input.num [[1]] = .num xs ∧ ((0 : PId), xs) ∈ [((0 : PId), [[(0 : ℝ)]]), (0, [[1]])] := ⟨_, rfl, by simp⟩
  have hp : ((⟨1, 1, fun _ _ => 1 + 1⟩ : Mat).sq 1).PosDef := by
    rw [single_sq]
    exact smul_one_posDef (by norm_num)
  refine ⟨k, P, inferInstance, Φ, observed Φ 0 (.num [[0]]) N, ?_⟩
  filter_upwards [C35_posterior hM hN (p := 0) (z := .num [[0]]) (noise := ⟨1, 1, fun _ _ => 1⟩) (by decide) hT rfl rfl
    (K := ⟨1, 1, fun _ _ => 1 + 1⟩) ⟨⟨1, 1, fun _ _ => 1⟩, ⟨.prim fun _ _ => 1, 1, rfl, rfl⟩, rfl, rfl⟩ hp (ops := flatLook) (m' := 1) flatLook_gives
    (e := fun _ : Fin 1 => (0, .num [[1]], 0)) (fun a => ⟨hT', Nat.one_pos, trivial, attached_iff.2 rfl⟩)] with y hy
  have hr : Regular (fun _ _ => True) (flatLook y) := (C46_condition (m := 0) (p := 0) flat_solid (attached_iff.2 rfl) (.one trivial) rfl rfl (by simp)
    (by
      show ((⟨1, 1, fun _ _ => 1⟩ : Mat).sq 1).PosDef
      rw [single_sq]
      exact smul_one_posDef one_pos)).regular
  obtain ⟨v, hv, -⟩ := hr.mean (m := 1) (p := 0) (attached_iff.2 rfl) (xs := [[1]]) (.one trivial)
  obtain ⟨A, hA, eA⟩ := flatLook_kernel y
  have := (hy 0 v A hv hA (by rw [eA]; norm_num)).1
  simp only [eA] at this
  exact ⟨v, hv, this⟩

end Stheno
