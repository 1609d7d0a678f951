import Verif.Predict
import Verif.Props.Coverage

/-!
# C57: Posterior means are the best predictions
-/

namespace Stheno

open Matrix MeasureTheory ProbabilityTheory

section
variable {Ω : Type*} [MeasurableSpace Ω] {P : Measure Ω} {before : List Op} {m m' : MId} {p i j : PId} {z x x' : Input} {t t' : ℕ}
  {T : PId → Input → Prop} {size : PId → Input → ℕ} {Φ : PId × Input × ℕ → Ω → ℝ} {noise : Mat}

/-- The values that are predicted. -/
structure Predictable (before : List Op) (m : MId) (T : PId → Input → Prop) (size : PId → Input → ℕ) (i : PId) (x : Input) (t : ℕ) : Prop where
  known : T i x
  entry : t < size i x
  atom : x.IsAtom
  attached : Attached (runOps before {}) m i

/-- What posteriors say about two values. -/
theorem two_values [IsFiniteMeasure P] (h : Models P (runOps before {}) m T size Φ) {N : Ω → Fin (size p z) → ℝ}
    (hN : IsNoise P Φ (noise.sq (size p z)) N) (hz : numElements z ≠ 0) (hT : T p z) (hr : noise.r = size p z) (hc : noise.c = size p z)
    {K : Mat} (hK : ObsMat (runOps before {}) m p z noise K) (hp : (K.sq K.r).PosDef) {ops : (Fin (size p z) → ℝ) → List Op}
    (g : ∀ y, Gives (ops y) before m (.exact p z noise (List.ofFn y)) m') (hi : Predictable before m T size i x t)
    (hj : Predictable before m T size j x' t') {M M' : (Fin (size p z) → ℝ) → ℝ}
    (hM : ∀ y, ∃ v, MeanCall (runOps (ops y) {}) m' i x v ∧ v[t]? = some (M y))
    (hM' : ∀ y, ∃ v, MeanCall (runOps (ops y) {}) m' j x' v ∧ v[t']? = some (M' y)) {V : ℝ}
    (hV : ∃ y A, KernelCall (runOps (ops y) {}) m' i j x x' A ∧ A.e t t' = V) :
    P[Φ (i, x, t) | MeasurableSpace.comap (observed Φ p z N) inferInstance] =ᵐ[P] (fun ω => M (observed Φ p z N ω)) ∧
    P[Φ (j, x', t') | MeasurableSpace.comap (observed Φ p z N) inferInstance] =ᵐ[P] (fun ω => M' (observed Φ p z N ω)) ∧
    ∫ ω, (Φ (i, x, t) ω - M (observed Φ p z N ω)) * (Φ (j, x', t') ω - M' (observed Φ p z N ω)) ∂P = V ∧ Measurable (observed Φ p z N) := by
  have hP := h.gaussian.isProbabilityMeasure
  have hm : Measurable (observed Φ p z N) := (jointly_observed h.gaussian h.measurable hN p z (k := 0) nofun).measZ
  obtain ⟨post, h1, h2, -, -, h3, h4, h5⟩ := C17_conditional h hN hz hT hr hc hK hp g (e := ![(i, x, t), (j, x', t')]) (by
    intro a
    fin_cases a
    · exact ⟨hi.known, hi.entry, hi.atom, hi.attached⟩
    · exact ⟨hj.known, hj.entry, hj.atom, hj.attached⟩)
  have e0 : ∀ y, (post y).mean 0 = M y := by
    intro y
    obtain ⟨v, hv, e⟩ := hM y
    obtain ⟨v', hv', e'⟩ := h1 y 0
    cases hv.unique hv'
    exact Option.some.inj (e'.symm.trans e)
  have e1 : ∀ y, (post y).mean 1 = M' y := by
    intro y
    obtain ⟨v, hv, e⟩ := hM' y
    obtain ⟨v', hv', e'⟩ := h1 y 1
    cases hv.unique hv'
    exact Option.some.inj (e'.symm.trans e)
  have e2 : ∀ y, (post y).var 0 1 = V := by
    intro y
    obtain ⟨y', A, hA, e⟩ := hV
    obtain ⟨A', hA', -, -, e'⟩ := h2 y' 0 1
    cases hA.unique hA'
    rw [h5 y y', ← e', ← e]
    rfl
  refine ⟨?_, ?_, ?_, hm⟩
  · have := h3 0
    simp only [e0] at this
    exact this
  · have := h3 1
    simp only [e1] at this
    exact this
  · have := h4 0 1
    simp only [e0, e1, e2] at this
    rw [← integral_condExp hm.comap_le]
    refine (integral_congr_ae this).trans ?_
    simp

/-- **C57.** As in `C17_conditional`, let `Φ` be a Gaussian process with the means and covariances of a measure, observed with independent Gaussian noise; let
`M y` be an entry of the mean of the posterior given `y`, and `V` the corresponding variance. Then the expected squared error of predicting this
value by any function `f` of the observation is `V`, plus the expected squared distance of `f` and `M`. -/
theorem C57_error [IsFiniteMeasure P] (h : Models P (runOps before {}) m T size Φ) {N : Ω → Fin (size p z) → ℝ}
    (hN : IsNoise P Φ (noise.sq (size p z)) N) (hz : numElements z ≠ 0) (hT : T p z) (hr : noise.r = size p z) (hc : noise.c = size p z)
    {K : Mat} (hK : ObsMat (runOps before {}) m p z noise K) (hp : (K.sq K.r).PosDef) {ops : (Fin (size p z) → ℝ) → List Op}
    (g : ∀ y, Gives (ops y) before m (.exact p z noise (List.ofFn y)) m') (hi : Predictable before m T size i x t) {M : (Fin (size p z) → ℝ) → ℝ}
    (hM : ∀ y, ∃ v, MeanCall (runOps (ops y) {}) m' i x v ∧ v[t]? = some (M y)) {V : ℝ}
    (hV : ∃ y A, KernelCall (runOps (ops y) {}) m' i i x x A ∧ A.e t t = V) {f : (Fin (size p z) → ℝ) → ℝ} (hf : Measurable f) :
    ∫⁻ ω, ENNReal.ofReal ((Φ (i, x, t) ω - f (observed Φ p z N ω)) ^ 2) ∂P =
      ENNReal.ofReal V + ∫⁻ ω, ENNReal.ofReal ((M (observed Φ p z N ω) - f (observed Φ p z N ω)) ^ 2) ∂P := by
  obtain ⟨h1, -, h2, hm⟩ := two_values h hN hz hT hr hc hK hp g hi hi hM hM hV
  have h3 : MemLp (Φ (i, x, t)) 2 P := (h.gaussian.hasGaussianLaw_eval _).memLp_two
  rw [prediction_error (f := fun ω => f (observed Φ p z N ω)) hm.comap_le h3 h1 (hf.comp (comap_measurable _)).stronglyMeasurable, ← h2]
  simp only [sq]

/-- **C57, the error of posterior means**: the expected squared error of the mean of the posterior is its variance. -/
theorem C57_mean [IsFiniteMeasure P] (h : Models P (runOps before {}) m T size Φ) {N : Ω → Fin (size p z) → ℝ}
    (hN : IsNoise P Φ (noise.sq (size p z)) N) (hz : numElements z ≠ 0) (hT : T p z) (hr : noise.r = size p z) (hc : noise.c = size p z)
    {K : Mat} (hK : ObsMat (runOps before {}) m p z noise K) (hp : (K.sq K.r).PosDef) {ops : (Fin (size p z) → ℝ) → List Op}
    (g : ∀ y, Gives (ops y) before m (.exact p z noise (List.ofFn y)) m') (hi : Predictable before m T size i x t) {M : (Fin (size p z) → ℝ) → ℝ}
    (hM : ∀ y, ∃ v, MeanCall (runOps (ops y) {}) m' i x v ∧ v[t]? = some (M y)) {V : ℝ}
    (hV : ∃ y A, KernelCall (runOps (ops y) {}) m' i i x x A ∧ A.e t t = V) :
    ∫ ω, (Φ (i, x, t) ω - M (observed Φ p z N ω)) ^ 2 ∂P = V := by
  obtain ⟨-, -, h2, -⟩ := two_values h hN hz hT hr hc hK hp g hi hi hM hM hV
  simp only [sq]
  exact h2

/-- **C57, the best prediction**: no function of the observation predicts better than the mean of the posterior, and only functions that are almost surely
equal to it predict as well. -/
theorem C57_best [IsFiniteMeasure P] (h : Models P (runOps before {}) m T size Φ) {N : Ω → Fin (size p z) → ℝ}
    (hN : IsNoise P Φ (noise.sq (size p z)) N) (hz : numElements z ≠ 0) (hT : T p z) (hr : noise.r = size p z) (hc : noise.c = size p z)
    {K : Mat} (hK : ObsMat (runOps before {}) m p z noise K) (hp : (K.sq K.r).PosDef) {ops : (Fin (size p z) → ℝ) → List Op}
    (g : ∀ y, Gives (ops y) before m (.exact p z noise (List.ofFn y)) m') (hi : Predictable before m T size i x t) {M : (Fin (size p z) → ℝ) → ℝ}
    (hM : ∀ y, ∃ v, MeanCall (runOps (ops y) {}) m' i x v ∧ v[t]? = some (M y)) {f : (Fin (size p z) → ℝ) → ℝ} (hf : Measurable f) :
    ∫⁻ ω, ENNReal.ofReal ((Φ (i, x, t) ω - M (observed Φ p z N ω)) ^ 2) ∂P ≤ ∫⁻ ω, ENNReal.ofReal ((Φ (i, x, t) ω - f (observed Φ p z N ω)) ^ 2) ∂P ∧
    (∫⁻ ω, ENNReal.ofReal ((Φ (i, x, t) ω - f (observed Φ p z N ω)) ^ 2) ∂P = ∫⁻ ω, ENNReal.ofReal ((Φ (i, x, t) ω - M (observed Φ p z N ω)) ^ 2) ∂P →
      (fun ω => f (observed Φ p z N ω)) =ᵐ[P] fun ω => M (observed Φ p z N ω)) := by
  have hP := h.gaussian.isProbabilityMeasure
  have hV : ∃ V, ∃ y A, KernelCall (runOps (ops y) {}) m' i i x x A ∧ A.e t t = V := by
    obtain ⟨post, -, h2, -⟩ := C17_conditional h hN hz hT hr hc hK hp g (e := fun _ : Fin 1 => (i, x, t)) fun _ =>
      ⟨hi.known, hi.entry, hi.atom, hi.attached⟩
    obtain ⟨A, hA, -⟩ := h2 0 0 0
    exact ⟨_, 0, A, hA, rfl⟩
  obtain ⟨V, hV⟩ := hV
  have e1 := C57_error h hN hz hT hr hc hK hp g hi hM hV hf
  have e2 := C57_mean h hN hz hT hr hc hK hp g hi hM hV
  obtain ⟨h1, -, h2, hm⟩ := two_values h hN hz hT hr hc hK hp g hi hi hM hM hV
  have h3 : MemLp (Φ (i, x, t)) 2 P := (h.gaussian.hasGaussianLaw_eval _).memLp_two
  have h4 : MemLp (fun ω => M (observed Φ p z N ω)) 2 P := (memLp_congr_ae h1).1 (h3.condExp one_le_two)
  have e3 := lintegral_sq_eq (h3.sub h4)
  simp only [Pi.sub_apply] at e3
  rw [e2] at e3
  rw [e1, e3]
  refine ⟨le_self_add, fun h0 => ?_⟩
  have h5 : ∫⁻ ω, ENNReal.ofReal ((M (observed Φ p z N ω) - f (observed Φ p z N ω)) ^ 2) ∂P = 0 :=
    (ENNReal.add_right_inj ENNReal.ofReal_ne_top).1 (h0.trans (add_zero _).symm)
  have h6 : AEMeasurable (fun ω => ENNReal.ofReal ((M (observed Φ p z N ω) - f (observed Φ p z N ω)) ^ 2)) P :=
    ((h4.1.aemeasurable.sub (hf.comp hm).aemeasurable).pow_const 2).ennreal_ofReal
  filter_upwards [(lintegral_eq_zero_iff' h6).1 h5] with ω e
  have : (M (observed Φ p z N ω) - f (observed Φ p z N ω)) ^ 2 ≤ 0 := ENNReal.ofReal_eq_zero.1 e
  nlinarith [sq_nonneg (M (observed Φ p z N ω) - f (observed Φ p z N ω)), pow_eq_zero_iff (two_ne_zero) |>.1 (le_antisymm this (sq_nonneg _))]

/-- **C57, laws of total expectation and covariance**: on average over the observation, the mean of the posterior is the mean of the prior, and the
covariances of posterior means together with the posterior covariances are the covariances of the prior. -/
theorem C57_total [IsFiniteMeasure P] (h : Models P (runOps before {}) m T size Φ) {N : Ω → Fin (size p z) → ℝ}
    (hN : IsNoise P Φ (noise.sq (size p z)) N) (hz : numElements z ≠ 0) (hT : T p z) (hr : noise.r = size p z) (hc : noise.c = size p z)
    {K : Mat} (hK : ObsMat (runOps before {}) m p z noise K) (hp : (K.sq K.r).PosDef) {ops : (Fin (size p z) → ℝ) → List Op}
    (g : ∀ y, Gives (ops y) before m (.exact p z noise (List.ofFn y)) m') (hi : Predictable before m T size i x t)
    (hj : Predictable before m T size j x' t') {M M' : (Fin (size p z) → ℝ) → ℝ}
    (hM : ∀ y, ∃ v, MeanCall (runOps (ops y) {}) m' i x v ∧ v[t]? = some (M y))
    (hM' : ∀ y, ∃ v, MeanCall (runOps (ops y) {}) m' j x' v ∧ v[t']? = some (M' y)) {y : Fin (size p z) → ℝ} {A B : Mat} {v : List ℝ}
    (hA : KernelCall (runOps (ops y) {}) m' i j x x' A) (hB : KernelCall (runOps before {}) m i j x x' B)
    (hv : MeanCall (runOps before {}) m i x v) :
    ∫ ω, M (observed Φ p z N ω) ∂P = v.getD t 0 ∧
    cov[fun ω => M (observed Φ p z N ω), fun ω => M' (observed Φ p z N ω); P] + A.e t t' = B.e t t' := by
  have hP := h.gaussian.isProbabilityMeasure
  obtain ⟨h1, h1', h2, hm⟩ := two_values h hN hz hT hr hc hK hp g hi hj hM hM' ⟨y, A, hA, rfl⟩
  have h3 : ∀ t, MemLp (Φ t) 2 P := fun t => (h.gaussian.hasGaussianLaw_eval t).memLp_two
  constructor
  · rw [← integral_congr_ae h1, integral_condExp hm.comap_le]
    obtain ⟨v', hv', -, e⟩ := h.mean i x hi.known
    cases hv.unique hv'
    exact e t hi.entry
  · rw [total_covariance hm.comap_le (h3 _) (h3 _) h1 h1', h2, sub_add_cancel]
    obtain ⟨B', hB', -, -, e⟩ := h.cov i x j x' hi.known hj.known
    cases hB.unique hB'
    exact e t hi.entry t' hj.entry

end

/-- The mean of the posterior of `flatLook` is half of what is observed. -/
theorem flatLook_mean (y : Fin 1 → ℝ) : ∃ v, MeanCall (runOps (flatLook y) {}) 1 0 (.num [[1]]) v ∧ v[0]? = some (y 0 / 2) := by
  have e : ((⟨1, 1, fun _ _ => 1 + 1⟩ : Mat).sq 1) = (2 : ℝ) • 1 := by
    rw [single_sq]; norm_num
  refine ⟨_, (flatLook_gives y).mean_call_of (x := .num [[1]]) (i := 0) (K := ⟨1, 1, fun _ _ => 1 + 1⟩) (by decide) (attached_iff.2 rfl) trivial
    (v := [0]) (u := [0]) ⟨.zero, 1, rfl, rfl⟩ ⟨⟨1, 1, fun _ _ => 1⟩, ⟨.prim fun _ _ => 1, 1, rfl, rfl⟩, rfl, rfl⟩ ?_ ⟨.zero, 1, rfl, rfl⟩
    ⟨.prim fun _ _ => 1, 1, rfl, rfl⟩ rfl (by simp) rfl rfl, ?_⟩
  · show ((⟨1, 1, fun _ _ => 1 + 1⟩ : Mat).sq 1).PosDef
    rw [e]
    exact smul_one_posDef (by norm_num)
  · show some ((0 : ℝ) + ∑ a : Fin 1, 1 * (((⟨1, 1, fun _ _ => 1 + 1⟩ : Mat).sq 1)⁻¹ *ᵥ fun a : Fin 1 => (List.ofFn y).getD a 0 - [(0 : ℝ)].getD a 0) a) = _
    rw [e, Matrix.inv_def]
    simp [smul_mulVec]
    ring

/-- C57 for `flatLook`: half of what is observed is the best prediction, with an expected squared error of one half. -/
example : ∃ (k : ℕ) (P : Measure (EuclideanSpace ℝ (Fin k) × EuclideanSpace ℝ (Fin 1))) (Φ : PId × Input × ℕ → _ → ℝ) (Z : _ → Fin 1 → ℝ),
    ∫ ω, (Φ (0, .num [[1]], 0) ω - Z ω 0 / 2) ^ 2 ∂P = 1 / 2 ∧ ∫ ω, Z ω 0 / 2 ∂P = 0 ∧
    ∀ f : (Fin 1 → ℝ) → ℝ, Measurable f → ENNReal.ofReal (1 / 2) ≤ ∫⁻ ω, ENNReal.ofReal ((Φ (0, .num [[1]], 0) ω - f (Z ω)) ^ 2) ∂P := by
  have hl : ∀ e ∈ [((0 : PId), [[(0 : ℝ)]]), (0, [[1]])], Attached (runOps [.gp .zero (.prim fun _ _ => 1) none none] {}) 0 e.1 ∧ Rows (fun _ => True) e.2 := by
    intro e he
    simp only [List.mem_cons, List.not_mem_nil, or_false] at he
    rcases he with rfl | rfl <;> exact ⟨attached_iff.2 rfl, .one trivial⟩
  have hn : ((⟨1, 1, fun _ _ => 1⟩ : Mat).sq 1).PosSemidef := by
    rw [single_sq]
    exact (smul_one_posDef one_pos).posSemidef
  obtain ⟨k, P, Φ, N, hM, hN⟩ := C17_exists flat_solid.regular _ hl hn
  have hfin := hM.gaussian.isProbabilityMeasure
  have hT : ∃ xs, Input.num [[0]] = .num xs ∧ ((0 : PId), xs) ∈ [((0 : PId), [[(0 : ℝ)]]), (0, [[1]])] := ⟨_, rfl, by simp⟩
  have hT' : ∃ xs, Input.num [[1]] = .num xs ∧ ((0 : PId), xs) ∈ [((0 : PId), [[(0 : ℝ)]]), (0, [[1]])] := ⟨_, rfl, by simp⟩
  have hp : ((⟨1, 1, fun _ _ => 1 + 1⟩ : Mat).sq 1).PosDef := by
    rw [single_sq]
    exact smul_one_posDef (by norm_num)
  have hK : ObsMat (runOps [.gp .zero (.prim fun _ _ => 1) none none] {}) 0 0 (.num [[0]]) ⟨1, 1, fun _ _ => 1⟩ ⟨1, 1, fun _ _ => 1 + 1⟩ :=
    ⟨⟨1, 1, fun _ _ => 1⟩, ⟨.prim fun _ _ => 1, 1, rfl, rfl⟩, rfl, rfl⟩
  have hi : Predictable [.gp .zero (.prim fun _ _ => 1) none none] 0 (fun p x => ∃ xs, x = .num xs ∧ (p, xs) ∈ [((0 : PId), [[(0 : ℝ)]]), (0, [[1]])])
      (fun _ x => numElements x) 0 (.num [[1]]) 0 := ⟨hT', Nat.one_pos, trivial, attached_iff.2 rfl⟩
  refine ⟨k, P, Φ, observed Φ 0 (.num [[0]]) N, ?_, ?_, fun f hf => ?_⟩
  · exact C57_mean hM hN (p := 0) (z := .num [[0]]) (noise := ⟨1, 1, fun _ _ => 1⟩) (by decide) hT rfl rfl hK hp (ops := flatLook) (m' := 1)
      flatLook_gives hi (M := fun y => y (0 : Fin 1) / 2) flatLook_mean ⟨0, flatLook_kernel 0⟩
  · obtain ⟨A, hA, -⟩ := flatLook_kernel 0
    exact (C57_total hM hN (p := 0) (z := .num [[0]]) (noise := ⟨1, 1, fun _ _ => 1⟩) (by decide) hT rfl rfl hK hp (ops := flatLook) (m' := 1)
      flatLook_gives hi hi (M := fun y => y (0 : Fin 1) / 2) (M' := fun y => y (0 : Fin 1) / 2) flatLook_mean flatLook_mean hA (B := ⟨1, 1, fun _ _ => 1⟩) (v := [0])
      ⟨.prim fun _ _ => 1, 1, rfl, rfl⟩ ⟨.zero, 1, rfl, rfl⟩).1
  · refine le_trans le_self_add (C57_error hM hN (p := 0) (z := .num [[0]]) (noise := ⟨1, 1, fun _ _ => 1⟩) (by decide) hT rfl rfl hK hp (ops := flatLook)
      (m' := 1) flatLook_gives hi (M := fun y => y (0 : Fin 1) / 2) flatLook_mean ⟨0, flatLook_kernel 0⟩ hf).ge

end Stheno
