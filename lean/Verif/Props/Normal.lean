import Verif.Gaussian
import Verif.NumericsSpec

/-!
# Properties of normals: C35, C38, C44
-/

namespace Stheno

open Matrix MeasureTheory ProbabilityTheory

variable {n k : ℕ}

/-! ## Marginals and credible bounds -/

/-- **C35.** Marginal variances are not negative, and are the diagonal of the variance where that is not negative. -/
theorem C35_marginals (g : Normal n) : g.marginals.1 = g.mean ∧
    ∀ i, 0 ≤ g.marginals.2 i ∧ (0 ≤ g.var i i → g.marginals.2 i = g.var i i) :=
  ⟨rfl, fun _ => ⟨le_max_right _ _, fun h => max_eq_left h⟩⟩

/-- **C35.** The marginal variances of random vectors are the variances of the entries. -/
theorem C35_variance {Ω : Type*} [MeasurableSpace Ω] {P : Measure Ω} [IsProbabilityMeasure P] {X : Ω → Fin n → ℝ} {g : Normal n}
    (hX : Describes P X g) (i : Fin n) : g.marginals.1 i = P[fun ω => X ω i] ∧ g.marginals.2 i = Var[fun ω => X ω i; P] := by
  refine ⟨(hX.mean i).symm, ?_⟩
  rw [← covariance_self (hX.memLp i).aemeasurable, hX.cov]
  refine (C35_marginals g).2 i |>.2 ?_
  rw [← hX.cov, covariance_self (hX.memLp i).aemeasurable]
  exact variance_nonneg _ _

/-- **C35.** The bounds contain the mean, are symmetric around it, and are wider for larger variances. -/
theorem C35_bounds (g h : Normal n) (i j : Fin n) :
    g.bounds.1 i = g.mean i ∧ g.bounds.2.1 i ≤ g.mean i ∧ g.mean i ≤ g.bounds.2.2 i ∧
    g.mean i - g.bounds.2.1 i = g.bounds.2.2 i - g.mean i ∧
    (g.var i i ≤ h.var j j → g.bounds.2.2 i - g.bounds.2.1 i ≤ h.bounds.2.2 j - h.bounds.2.1 j) ∧
    (0 ≤ g.var i i → g.var i i < h.var j j → g.bounds.2.2 i - g.bounds.2.1 i < h.bounds.2.2 j - h.bounds.2.1 j) := by
  have h0 : ∀ (g : Normal n) i, 0 ≤ √(max (g.var i i) 0) := fun g i => Real.sqrt_nonneg _
  have e : ∀ (g : Normal n) i, g.bounds.2.2 i - g.bounds.2.1 i = 2 * 1.96 * √(max (g.var i i) 0) := by
    intro g i
    show g.mean i + 1.96 * √(max (g.var i i) 0) - (g.mean i - 1.96 * √(max (g.var i i) 0)) = _
    ring
  refine ⟨rfl, ?_, ?_, ?_, fun hv => ?_, fun h0 hv => ?_⟩
  · show g.mean i - 1.96 * √(max (g.var i i) 0) ≤ _
    linarith [h0 g i]
  · show _ ≤ g.mean i + 1.96 * √(max (g.var i i) 0)
    linarith [h0 g i]
  · show g.mean i - (g.mean i - 1.96 * √(max (g.var i i) 0)) = g.mean i + 1.96 * √(max (g.var i i) 0) - g.mean i
    ring
  · rw [e, e]
    exact mul_le_mul_of_nonneg_left (Real.sqrt_le_sqrt (max_le_max_right 0 hv)) (by norm_num)
  · rw [e, e, max_eq_left h0, max_eq_left (h0.trans hv.le)]
    exact mul_lt_mul_of_pos_left (Real.sqrt_lt_sqrt h0 hv) (by norm_num)

/-- The bounds of an entry with variance 4. -/
example : (⟨![1], !![4]⟩ : Normal 1).bounds.2.1 0 = 1 - 1.96 * 2 ∧ (⟨![1], !![4]⟩ : Normal 1).bounds.2.2 0 = 1 + 1.96 * 2 := by
  have : √(max (4 : ℝ) 0) = 2 := by
    rw [max_eq_left (by norm_num), show (4 : ℝ) = 2 ^ 2 by norm_num, Real.sqrt_sq (by norm_num)]
  constructor
  · exact congrArg (fun t : ℝ => 1 - 1.96 * t) this
  · exact congrArg (fun t : ℝ => 1 + 1.96 * t) this

/-- The bounds grow. -/
example : (⟨![1], !![4]⟩ : Normal 1).bounds.2.2 0 - (⟨![1], !![4]⟩ : Normal 1).bounds.2.1 0 <
    (⟨![0], !![5]⟩ : Normal 1).bounds.2.2 0 - (⟨![0], !![5]⟩ : Normal 1).bounds.2.1 0 :=
  (C35_bounds ⟨![1], !![4]⟩ ⟨![0], !![5]⟩ 0 0).2.2.2.2.2 (by norm_num) (by norm_num)

/-! ## Arithmetic -/

section
variable {Ω : Type*} [MeasurableSpace Ω] {P : Measure Ω} {X Y : Ω → Fin n → ℝ} {g h : Normal n}

/-- The same random vectors and the same normals. -/
theorem IsNormal.congr {X' : Ω → Fin n → ℝ} {g' : Normal n} (hX : IsNormal P X g) (e : X' = X) (e' : g' = g) : IsNormal P X' g' := by
  rw [e, e']; exact hX

theorem Describes.congr {X' : Ω → Fin n → ℝ} {g' : Normal n} (hX : Describes P X g) (e : X' = X) (e' : g' = g) : Describes P X' g' := by
  rw [e, e']; exact hX

theorem Normal.ext {g h : Normal n} (h1 : g.mean = h.mean) (h2 : g.var = h.var) : g = h := by
  cases g; cases h; simp_all

/-- **C38, matrix multiplication.** -/
theorem C38_lmatmul [IsProbabilityMeasure P] (A : Matrix (Fin k) (Fin n) ℝ) :
    (Describes P X g → Describes P (fun ω => A *ᵥ X ω) (g.lmatmul A)) ∧
    (IsNormal P X g → IsNormal P (fun ω => A *ᵥ X ω) (g.lmatmul A)) :=
  ⟨fun hX => (hX.affine A 0).congr (by simp) (Normal.ext (by simp [Normal.lmatmul]) rfl),
    fun hX => (hX.affine A 0).congr (by simp) (Normal.ext (by simp [Normal.lmatmul]) rfl)⟩

/-- **C38, matrix multiplication.** `rmatmul` multiplies with the transpose. -/
theorem C38_rmatmul [IsProbabilityMeasure P] (A : Matrix (Fin n) (Fin k) ℝ) :
    (Describes P X g → Describes P (fun ω => Aᵀ *ᵥ X ω) (g.rmatmul A)) ∧
    (IsNormal P X g → IsNormal P (fun ω => Aᵀ *ᵥ X ω) (g.rmatmul A)) :=
  ⟨fun hX => (hX.affine Aᵀ 0).congr (by simp) (Normal.ext (by simp [Normal.rmatmul]) rfl),
    fun hX => (hX.affine Aᵀ 0).congr (by simp) (Normal.ext (by simp [Normal.rmatmul]) rfl)⟩

theorem mul_eq_affine (g : Normal n) (c : ℝ) (d : Fin n → ℝ) : (g.mul c).addVec d = ⟨(diagonal fun _ => c) *ᵥ g.mean + d,
    (diagonal fun _ => c) * g.var * (diagonal fun _ => c)ᵀ⟩ := by
  refine Normal.ext ?_ ?_
  · funext i
    simp [Normal.mul, Normal.addVec, mul_comm]
  · ext i j
    show g.var i j * (c * c) = ((diagonal fun _ => c) * g.var * (diagonal fun _ => c)ᵀ : Matrix (Fin n) (Fin n) ℝ) i j
    rw [diagonal_transpose, mul_diagonal, diagonal_mul]
    ring

theorem scale_affine [IsProbabilityMeasure P] (c : ℝ) (d : Fin n → ℝ) :
    (Describes P X g → Describes P (fun ω i => X ω i * c + d i) ((g.mul c).addVec d)) ∧
    (IsNormal P X g → IsNormal P (fun ω i => X ω i * c + d i) ((g.mul c).addVec d)) := by
  have e : (fun ω i => X ω i * c + d i) = fun ω => (diagonal fun _ => c) *ᵥ X ω + d := by
    funext ω i
    simp [mul_comm]
  exact ⟨fun hX => (hX.affine (diagonal fun _ => c) d).congr e (mul_eq_affine g c d),
    fun hX => (hX.affine (diagonal fun _ => c) d).congr e (mul_eq_affine g c d)⟩

/-- **C38, scaling**, from either side. -/
theorem C38_mul [IsProbabilityMeasure P] (c : ℝ) :
    (Describes P X g → Describes P (fun ω i => X ω i * c) (g.mul c) ∧ Describes P (fun ω i => c * X ω i) (Normal.rmul c g)) ∧
    (IsNormal P X g → IsNormal P (fun ω i => X ω i * c) (g.mul c) ∧ IsNormal P (fun ω i => c * X ω i) (Normal.rmul c g)) := by
  have e : g.mul c = (g.mul c).addVec 0 := Normal.ext (add_zero _).symm rfl
  refine ⟨fun hX => ⟨?_, ?_⟩, fun hX => ⟨?_, ?_⟩⟩
  · exact ((scale_affine c 0).1 hX).congr (by simp) e
  · exact ((scale_affine c 0).1 hX).congr (by simp [mul_comm]) e
  · exact ((scale_affine c 0).2 hX).congr (by simp) e
  · exact ((scale_affine c 0).2 hX).congr (by simp [mul_comm]) e

/-- **C38, adding constants**, from either side, and subtracting them. -/
theorem C38_const [IsProbabilityMeasure P] (c : Fin n → ℝ) :
    (Describes P X g → Describes P (fun ω => X ω + c) (g.addVec c) ∧ Describes P (fun ω => c + X ω) (Normal.radd c g) ∧
      Describes P (fun ω => X ω - c) (g.subVec c) ∧ Describes P (fun ω => c - X ω) (Normal.rsub c g)) ∧
    (IsNormal P X g → IsNormal P (fun ω => X ω + c) (g.addVec c) ∧ IsNormal P (fun ω => c + X ω) (Normal.radd c g) ∧
      IsNormal P (fun ω => X ω - c) (g.subVec c) ∧ IsNormal P (fun ω => c - X ω) (Normal.rsub c g)) := by
  have e : ∀ c, g.addVec c = (g.mul 1).addVec c := fun c => Normal.ext (by simp [Normal.addVec, Normal.mul])
    (by ext i j; simp [Normal.addVec, Normal.mul])
  refine ⟨fun hX => ⟨?_, ?_, ?_, ?_⟩, fun hX => ⟨?_, ?_, ?_, ?_⟩⟩
  · exact ((scale_affine 1 c).1 hX).congr (by funext ω i; simp) (e c)
  · exact ((scale_affine 1 c).1 hX).congr (by funext ω i; simp [add_comm]) (e c)
  · exact ((scale_affine 1 (-c)).1 hX).congr (by funext ω i; simp [sub_eq_add_neg]) (e (-c))
  · exact ((scale_affine (-1) c).1 hX).congr (by funext ω i; simp [sub_eq_neg_add]) rfl
  · exact ((scale_affine 1 c).2 hX).congr (by funext ω i; simp) (e c)
  · exact ((scale_affine 1 c).2 hX).congr (by funext ω i; simp [add_comm]) (e c)
  · exact ((scale_affine 1 (-c)).2 hX).congr (by funext ω i; simp [sub_eq_add_neg]) (e (-c))
  · exact ((scale_affine (-1) c).2 hX).congr (by funext ω i; simp [sub_eq_neg_add]) rfl

/-- **C38, negation and division.** -/
theorem C38_neg_div [IsProbabilityMeasure P] (c : ℝ) :
    (Describes P X g → Describes P (fun ω => - X ω) g.neg ∧ Describes P (fun ω i => X ω i / c) (g.div c)) ∧
    (IsNormal P X g → IsNormal P (fun ω => - X ω) g.neg ∧ IsNormal P (fun ω i => X ω i / c) (g.div c)) := by
  refine ⟨fun hX => ⟨?_, ?_⟩, fun hX => ⟨?_, ?_⟩⟩
  · exact (((C38_mul (-1)).1 hX).2).congr (by funext ω i; simp) rfl
  · exact (((C38_mul (1 / c)).1 hX).1).congr (by funext ω i; simp [div_eq_mul_inv]) rfl
  · exact (((C38_mul (-1)).2 hX).2).congr (by funext ω i; simp) rfl
  · exact (((C38_mul (1 / c)).2 hX).1).congr (by funext ω i; simp [div_eq_mul_inv]) rfl

/-- **C38, sums and differences of uncorrelated vectors**, which for Gaussian vectors that are independent are Gaussian. -/
theorem C38_add [IsProbabilityMeasure P] :
    (Describes P X g → Describes P Y h → (∀ i j, cov[fun ω => X ω i, fun ω => Y ω j; P] = 0) →
      Describes P (fun ω => X ω + Y ω) (g.add h) ∧ Describes P (fun ω => X ω - Y ω) (g.subNormal h)) ∧
    (IsNormal P X g → IsNormal P Y h → IndepFun X Y P →
      IsNormal P (fun ω => X ω + Y ω) (g.add h) ∧ IsNormal P (fun ω => X ω - Y ω) (g.subNormal h)) := by
  refine ⟨fun hX hY hi => ⟨hX.add hY hi, ?_⟩, fun hX hY hi => ⟨hX.add hY hi, ?_⟩⟩
  · refine (hX.add ((C38_neg_div 1).1 hY).1 fun i j => ?_).congr (by funext ω; rw [sub_eq_add_neg]) rfl
    show cov[fun ω => X ω i, fun ω => - Y ω j; P] = 0
    rw [covariance_fun_neg_right, hi, neg_zero]
  · exact (hX.add ((C38_neg_div 1).2 hY).1 (hi.comp measurable_id measurable_neg)).congr (by funext ω; rw [sub_eq_add_neg]) rfl

end

/-- **C38, subvectors**: `B.take` and `B.submatrix` select the distribution of the selected entries. -/
theorem C38_sub {Ω : Type*} [MeasurableSpace Ω] {P : Measure Ω} [IsProbabilityMeasure P] {X : Ω → Fin n → ℝ} {g : Normal n} (is : List (Fin n)) :
    (Describes P X g → Describes P (fun ω i => X ω (is.get i)) (g.sub is)) ∧
    (IsNormal P X g → IsNormal P (fun ω i => X ω (is.get i)) (g.sub is)) := by
  have hd : Describes P X g → Describes P (fun ω i => X ω (is.get i)) (g.sub is) :=
    fun hX => ⟨fun i => hX.memLp _, fun i => hX.mean _, fun i j => hX.cov _ _⟩
  exact ⟨hd, fun hX => ⟨hd hX.toDescribes,
    hX.gaussian.map (ContinuousLinearMap.pi fun i : Fin is.length => ContinuousLinearMap.proj (R := ℝ) (φ := fun _ : Fin n => ℝ) (is.get i))⟩⟩

/-- **C38, second moments.** -/
theorem C38_m2 {Ω : Type*} [MeasurableSpace Ω] {P : Measure Ω} [IsProbabilityMeasure P] {X : Ω → Fin n → ℝ} {g : Normal n}
    (hX : Describes P X g) (i j : Fin n) : g.m2 i j = ∫ ω, X ω i * X ω j ∂P := by
  have := covariance_eq_sub (hX.memLp i) (hX.memLp j)
  rw [hX.cov, hX.mean, hX.mean] at this
  show g.var i j + g.mean i * g.mean j = _
  rw [this]
  simp

/-- **C38, diagonalisation**: the same marginals without correlations. -/
theorem C38_diagonalise (g : Normal n) : g.diagonalise.marginals = g.marginals ∧ g.diagonalise.mean = g.mean ∧
    (∀ i, g.diagonalise.var i i = g.var i i) ∧ ∀ i j, i ≠ j → g.diagonalise.var i j = 0 :=
  ⟨by simp [Normal.marginals, Normal.diagonalise, Normal.varDiag], rfl, fun i => diagonal_apply_eq _ i, fun _ _ h => diagonal_apply_ne _ h⟩

/-- A variance with correlation. -/
theorem posSemidef_corr : (!![2, 1; 1, 2] : Matrix (Fin 2) (Fin 2) ℝ).PosSemidef := by
  refine Matrix.PosSemidef.of_dotProduct_mulVec_nonneg ?_ fun x => ?_
  · ext i j; fin_cases i <;> fin_cases j <;> simp
  · simp [Matrix.mulVec, dotProduct, Fin.sum_univ_two]
    nlinarith [sq_nonneg (x 0 + x 1), sq_nonneg (x 0), sq_nonneg (x 1)]

/-- Independent normal vectors, their difference scaled and shifted and multiplied with a matrix. -/
example : ∃ (Ω : Type) (_ : MeasurableSpace Ω) (P : Measure Ω) (X Y : Ω → Fin 2 → ℝ),
    IsNormal P (fun ω => !![1, 2] *ᵥ (fun i => (X ω - Y ω) i * 3)) ⟨![-18], !![171]⟩ ∧ IndepFun X Y P := by
  obtain ⟨P, X, Y, hX, hY, hi⟩ := exists_indep (g := ⟨![1, 2], 1⟩) (h := ⟨![3, 4], !![2, 1; 1, 2]⟩) Matrix.PosSemidef.one posSemidef_corr
  have := hX.isProbabilityMeasure
  refine ⟨_, _, P, X, Y, ((C38_lmatmul !![1, 2]).2 ((C38_mul 3).2 ((C38_add).2 hX hY hi).2).1).congr rfl (Normal.ext ?_ ?_), hi⟩
  · funext i
    fin_cases i
    simp [Normal.lmatmul, Normal.mul, Normal.subNormal, Normal.add, Normal.neg, Normal.rmul, vecHead, vecTail]
    norm_num
  · ext i j
    fin_cases i; fin_cases j
    simp [Normal.lmatmul, Normal.mul, Normal.subNormal, Normal.add, Normal.neg, Normal.rmul, vecHead, vecTail, vecMul, dotProduct, Fin.sum_univ_two,
      Matrix.one_apply]
    norm_num

/-- **A defect**: a normal times a column vector. The product of the random vector and the column has another variance than the one
that the code computes; the latter is not even symmetric. -/
theorem C38_mul_vector_wrong : ∃ (Ω : Type) (_ : MeasurableSpace Ω) (P : Measure Ω) (_ : IsProbabilityMeasure P) (X : Ω → Fin 2 → ℝ)
    (g : Normal 2) (c : Fin 2 → ℝ), IsNormal P X g ∧ (¬ Describes P (fun ω i => X ω i * c i) (g.mulVec c)) ∧ ¬ (g.mulVec c).var.IsSymm := by
  have hg : (⟨0, !![2, 1; 1, 2]⟩ : Normal 2).var.PosSemidef := posSemidef_corr
  have hX := Normal.isNormal_law hg
  refine ⟨_, _, _, hX.isProbabilityMeasure, _, _, ![1, 2], hX, fun hd => ?_, fun hs => ?_⟩
  · have h1 := hd.cov 0 1
    have h2 := hd.cov 1 0
    rw [covariance_comm] at h1
    have := h1.symm.trans h2
    simp [Normal.mulVec] at this
    norm_num at this
  · have := congrFun (congrFun hs 0) 1
    simp [Normal.mulVec] at this
    norm_num at this

/-- With one entry, or a column of equal numbers, the product is right. -/
theorem C38_mul_vector_const (g : Normal n) (c : ℝ) : g.mulVec (fun _ => c) = g.mul c := rfl

/-! ## Samples -/

/-- **C44.** Let `z` be independent standard normal numbers. If `root` computes a factor of the variance plus noise, then the samples
are normal with the mean and that variance, and they are independent. -/
theorem C44_sample {Ω : Type*} [MeasurableSpace Ω] {P : Measure Ω} (g : Normal n) (noise : Option ℝ)
    (root : Matrix (Fin n) (Fin n) ℝ → Matrix (Fin n) (Fin n) ℝ)
    (hroot : root (g.noisyVar noise) * (root (g.noisyVar noise))ᵀ = g.var + (noise.getD 0) • (1 : Matrix (Fin n) (Fin n) ℝ))
    (meanIsZero : Bool) (hz : meanIsZero = true → g.mean = 0) (z : Ω → Fin k → Fin n → ℝ)
    (hn : ∀ s i, HasLaw (fun ω => z ω s i) (gaussianReal 0 1) P) (hi : iIndepFun (fun (a : Fin k × Fin n) ω => z ω a.1 a.2) P) :
    (∀ s, IsNormal P (fun ω => g.sample root meanIsZero noise (z ω) s) ⟨g.mean, g.var + (noise.getD 0) • (1 : Matrix (Fin n) (Fin n) ℝ)⟩) ∧
    iIndepFun (fun s ω => g.sample root meanIsZero noise (z ω) s) P := by
  have hG : ∀ a : Fin k × Fin n, HasGaussianLaw (fun ω => z ω a.1 a.2) P := fun a => (hn a.1 a.2).hasGaussianLaw
  have hJ := hi.hasGaussianLaw hG
  have hP := hi.isProbabilityMeasure
  have hc : ∀ s t i j, (s, i) ≠ (t, j) → cov[fun ω => z ω s i, fun ω => z ω t j; P] = 0 := fun s t i j hne =>
    (hi.indepFun hne).covariance_eq_zero (hG (s, i)).memLp_two (hG (t, j)).memLp_two
  have hv : ∀ s i, cov[fun ω => z ω s i, fun ω => z ω s i; P] = 1 := fun s i => by
    rw [covariance_self (hn s i).aemeasurable, (hn s i).variance_eq, variance_id_gaussianReal]
    rfl
  have hs : ∀ s, IsNormal P (fun ω => z ω s) ⟨0, 1⟩ := fun s => by
    refine ⟨⟨fun i => (hG (s, i)).memLp_two, fun i => ?_, fun i j => ?_⟩, ?_⟩
    · have := (hn s i).integral_eq
      rw [this, integral_id_gaussianReal]
      rfl
    · by_cases h : i = j
      · rw [h, hv]; simp
      · rw [hc s s i j (by simp [h])]
        simp [h]
    · exact hJ.map (ContinuousLinearMap.pi fun i : Fin n => ContinuousLinearMap.proj (R := ℝ) (φ := fun _ : Fin k × Fin n => ℝ) (s, i))
  have hsam : ∀ s ω, g.sample root meanIsZero noise (z ω) s = root (g.noisyVar noise) *ᵥ z ω s + g.mean := fun s ω => by
    unfold Normal.sample
    cases meanIsZero with
    | true => simp [hz rfl]
    | false => rfl
  refine ⟨fun s => ((hs s).affine (root (g.noisyVar noise)) g.mean).congr (funext fun ω => hsam s ω) (Normal.ext ?_ ?_), ?_⟩
  · simp
  · rw [← hroot]
    simp
  · have hcol : iIndepFun (fun s ω i => z ω s i) P := by
      refine HasGaussianLaw.iIndepFun_of_covariance_eval (X := fun s i ω => z ω s i) ?_ fun s t hst i j => hc s t i j (by simp [hst])
      exact hJ.map (ContinuousLinearMap.pi fun s : Fin k => ContinuousLinearMap.pi fun i : Fin n =>
        ContinuousLinearMap.proj (R := ℝ) (φ := fun _ : Fin k × Fin n => ℝ) (s, i))
    have := hcol.comp (fun _ x => root (g.noisyVar noise) *ᵥ x + g.mean) fun _ => by
      exact Continuous.measurable (by fun_prop)
    exact this.congr fun s => ae_of_all _ fun ω => (hsam s ω).symm

/-- **C44**, with the Cholesky factor. -/
theorem C44_chol {Ω : Type*} [MeasurableSpace Ω] {P : Measure Ω} (g : Normal n) (noise : Option ℝ) (hp : (g.noisyVar noise).PosDef)
    (meanIsZero : Bool) (hz : meanIsZero = true → g.mean = 0) (z : Ω → Fin k → Fin n → ℝ)
    (hn : ∀ s i, HasLaw (fun ω => z ω s i) (gaussianReal 0 1) P) (hi : iIndepFun (fun (a : Fin k × Fin n) ω => z ω a.1 a.2) P) :
    (∀ s, IsNormal P (fun ω => g.sample chol meanIsZero noise (z ω) s) ⟨g.mean, g.var + (noise.getD 0) • (1 : Matrix (Fin n) (Fin n) ℝ)⟩) ∧
    iIndepFun (fun s ω => g.sample chol meanIsZero noise (z ω) s) P := by
  refine C44_sample g noise chol ?_ meanIsZero hz z hn hi
  rw [(chol_spec hp).mul]
  cases noise with
  | none => simp [Normal.noisyVar]
  | some s => simp [Normal.noisyVar, Matrix.smul_one_eq_diagonal]

/-- Two samples of two numbers with noise. -/
example : ∃ (Ω : Type) (_ : MeasurableSpace Ω) (P : Measure Ω) (z : Ω → Fin 2 → Fin 2 → ℝ),
    (∀ s, IsNormal P (fun ω => (⟨![1, 2], !![3, 2; 2, 4]⟩ : Normal 2).sample (fun _ => !![2, 0; 1, 2]) false (some 1) (z ω) s)
      ⟨![1, 2], !![4, 2; 2, 5]⟩) := by
  let P : Measure (Fin 2 × Fin 2 → ℝ) := Measure.pi fun _ => gaussianReal 0 1
  have e : (!![3, 2; 2, 4] : Matrix (Fin 2) (Fin 2) ℝ) + (some (1 : ℝ)).getD 0 • (1 : Matrix (Fin 2) (Fin 2) ℝ) = !![4, 2; 2, 5] := by
    ext i j; fin_cases i <;> fin_cases j <;> simp <;> norm_num
  have := (C44_sample (P := P) (k := 2) ⟨![1, 2], !![3, 2; 2, 4]⟩ (some 1) (fun _ => !![2, 0; 1, 2]) (by
    rw [e]
    ext i j; fin_cases i <;> fin_cases j <;> simp [Matrix.mul_apply, Fin.sum_univ_two] <;> norm_num) false (by simp) (fun ω s i => ω (s, i))
    (fun s i => (measurePreserving_eval (fun _ : Fin 2 × Fin 2 => gaussianReal 0 1) (s, i)).hasLaw)
    (iIndepFun_pi (X := fun _ => id) fun _ => aemeasurable_id)).1
  rw [e] at this
  exact ⟨_, _, P, _, this⟩

end Stheno
