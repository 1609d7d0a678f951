import Mathlib.Probability.Distributions.Gaussian.Multivariate
import Mathlib.Probability.Distributions.Gaussian.HasGaussianLaw.Independence
import Verif.Normal

/-!
# Random vectors and their normals

What it means that a normal (`Verif/Normal.lean`) is the distribution of a random vector. Nothing here depends on how the code
computes.
-/

namespace Stheno

open Matrix MeasureTheory ProbabilityTheory

variable {Ω : Type*} [MeasurableSpace Ω] {P : Measure Ω} {n k : ℕ}

/-- The random vector `X` has the mean and the covariances of the normal `g`. -/
structure Describes (P : Measure Ω) (X : Ω → Fin n → ℝ) (g : Normal n) : Prop where
  memLp : ∀ i, MemLp (fun ω => X ω i) 2 P
  mean : ∀ i, ∫ ω, X ω i ∂P = g.mean i
  cov : ∀ i j, cov[fun ω => X ω i, fun ω => X ω j; P] = g.var i j

/-- The random vector `X` is Gaussian with the mean and the covariances of the normal `g`. -/
structure IsNormal (P : Measure Ω) (X : Ω → Fin n → ℝ) (g : Normal n) : Prop extends Describes P X g where
  gaussian : HasGaussianLaw X P

variable {X Y : Ω → Fin n → ℝ} {g h : Normal n}

/-- Affine maps. -/
theorem Describes.affine [IsProbabilityMeasure P] (hX : Describes P X g) (A : Matrix (Fin k) (Fin n) ℝ) (c : Fin k → ℝ) :
    Describes P (fun ω => A *ᵥ X ω + c) ⟨A *ᵥ g.mean + c, A * g.var * Aᵀ⟩ := by
  have hs : ∀ i j, MemLp (fun ω => A i j * X ω j) 2 P := fun i j => (hX.memLp j).const_mul _
  have hm : ∀ i, MemLp (fun ω => ∑ j, A i j * X ω j) 2 P := fun i => memLp_finsetSum _ fun j _ => hs i j
  have hi : ∀ i, Integrable (fun ω => ∑ j, A i j * X ω j) P := fun i => (hm i).integrable (by norm_num)
  refine ⟨fun i => ?_, fun i => ?_, fun i j => ?_⟩
  · exact (hm i).add (memLp_const _)
  · show ∫ ω, (∑ j, A i j * X ω j) + c i ∂P = (∑ j, A i j * g.mean j) + c i
    rw [integral_add (hi i) (integrable_const _), integral_finsetSum _ fun j _ => (hs i j).integrable (by norm_num)]
    simp only [integral_const_mul, hX.mean, integral_const, probReal_univ, one_smul]
  · show cov[fun ω => (∑ a, A i a * X ω a) + c i, fun ω => (∑ b, A j b * X ω b) + c j; P] = _
    rw [covariance_add_const_left (hi i), covariance_add_const_right (hi j), covariance_fun_sum_fun_sum (hs i) (hs j)]
    simp only [covariance_const_mul_left, covariance_const_mul_right, hX.cov, mul_apply, transpose_apply, Finset.sum_mul]
    rw [Finset.sum_comm]
    exact Finset.sum_congr rfl fun b _ => Finset.sum_congr rfl fun a _ => by ring

theorem IsNormal.isProbabilityMeasure (hX : IsNormal P X g) : IsProbabilityMeasure P := hX.gaussian.isProbabilityMeasure

/-- Affine maps. -/
theorem IsNormal.affine (hX : IsNormal P X g) (A : Matrix (Fin k) (Fin n) ℝ) (c : Fin k → ℝ) :
    IsNormal P (fun ω => A *ᵥ X ω + c) ⟨A *ᵥ g.mean + c, A * g.var * Aᵀ⟩ := by
  have := hX.isProbabilityMeasure
  refine ⟨hX.toDescribes.affine A c, ⟨?_⟩⟩
  have hL := hX.gaussian.map (LinearMap.toContinuousLinearMap (Matrix.mulVecLin A))
  have hc : (fun ω => A *ᵥ X ω + c) = (fun x => x + c) ∘ ((LinearMap.toContinuousLinearMap (Matrix.mulVecLin A)) ∘ X) := rfl
  have hm := hL.aemeasurable
  rw [hc, ← AEMeasurable.map_map_of_aemeasurable (by fun_prop) hm]
  have := hL.isGaussian_map
  infer_instance

/-- Sums. -/
theorem Describes.add [IsProbabilityMeasure P] (hX : Describes P X g) (hY : Describes P Y h)
    (hi : ∀ i j, cov[fun ω => X ω i, fun ω => Y ω j; P] = 0) :
    Describes P (fun ω => X ω + Y ω) ⟨g.mean + h.mean, g.var + h.var⟩ := by
  refine ⟨fun i => (hX.memLp i).add (hY.memLp i), fun i => ?_, fun i j => ?_⟩
  · show ∫ ω, X ω i + Y ω i ∂P = g.mean i + h.mean i
    rw [integral_add ((hX.memLp i).integrable (by norm_num)) ((hY.memLp i).integrable (by norm_num)), hX.mean, hY.mean]
  · show cov[(fun ω => X ω i) + (fun ω => Y ω i), (fun ω => X ω j) + fun ω => Y ω j; P] = g.var i j + h.var i j
    rw [covariance_add_left (hX.memLp i) (hY.memLp i) ((hX.memLp j).add (hY.memLp j)),
      covariance_add_right (hX.memLp i) (hX.memLp j) (hY.memLp j), covariance_add_right (hY.memLp i) (hX.memLp j) (hY.memLp j),
      hX.cov, hY.cov, hi, covariance_comm, hi]
    ring

theorem IsNormal.indep_cov (hX : IsNormal P X g) (hY : IsNormal P Y h) (hi : IndepFun X Y P) (i j : Fin n) :
    cov[fun ω => X ω i, fun ω => Y ω j; P] = 0 :=
  IndepFun.covariance_eq_zero (hi.comp (measurable_pi_apply i) (measurable_pi_apply j)) (hX.memLp i) (hY.memLp j)

/-- Sums of independent vectors. -/
theorem IsNormal.add (hX : IsNormal P X g) (hY : IsNormal P Y h) (hi : IndepFun X Y P) :
    IsNormal P (fun ω => X ω + Y ω) ⟨g.mean + h.mean, g.var + h.var⟩ := by
  have := hX.isProbabilityMeasure
  exact ⟨hX.toDescribes.add hY.toDescribes fun i j => hX.indep_cov hY hi i j, (hi.hasGaussianLaw hX.gaussian hY.gaussian).fun_add⟩

/-- Covariance matrices are positive semi-definite. -/
theorem Describes.posSemidef [IsProbabilityMeasure P] (hX : Describes P X g) : g.var.PosSemidef := by
  refine .of_dotProduct_mulVec_nonneg ?_ fun v => ?_
  · ext i j
    simp only [conjTranspose_apply, star_trivial]
    rw [← hX.cov, ← hX.cov, covariance_comm]
  · have h1 := (hX.affine (replicateRow (Fin 1) v) 0).cov 0 0
    have : v ⬝ᵥ (g.var *ᵥ v) = (replicateRow (Fin 1) v * g.var * (replicateRow (Fin 1) v)ᵀ) 0 0 := by
      rw [Matrix.mul_assoc]
      simp [mul_apply, dotProduct, mulVec]
    rw [star_trivial, this]
    refine le_of_le_of_eq ?_ h1
    rw [covariance_self ((hX.affine (replicateRow (Fin 1) v) 0).memLp 0).aemeasurable]
    exact variance_nonneg _ _

/-- The law of a normal. -/
noncomputable def Normal.law (g : Normal n) : Measure (EuclideanSpace ℝ (Fin n)) := multivariateGaussian (.toLp 2 g.mean) g.var

/-- The law of a Gaussian vector. -/
theorem IsNormal.map_eq (hX : IsNormal P X g) : P.map (fun ω => WithLp.toLp 2 (X ω)) = g.law := by
  have := hX.isProbabilityMeasure
  have hp := hX.toDescribes.posSemidef
  have hG : HasGaussianLaw (fun ω => WithLp.toLp 2 (X ω)) P :=
    hX.gaussian.map_equiv (PiLp.continuousLinearEquiv 2 ℝ fun _ : Fin n => ℝ).symm
  have := hG.isGaussian_map
  have hm := hG.aemeasurable
  unfold Normal.law
  refine IsGaussian.ext ?_ ?_
  · simp only [id_eq, integral_id_multivariateGaussian]
    rw [integral_map hm (by fun_prop)]
    ext i
    have := (EuclideanSpace.proj (𝕜 := ℝ) i).integral_comp_comm hG.integrable
    exact this.symm.trans (hX.mean i)
  · rw [← ContinuousLinearMap.toBilinForm_inj]
    refine LinearMap.BilinForm.ext_basis (EuclideanSpace.basisFun (Fin n) ℝ).toBasis fun i j => ?_
    rw [ContinuousLinearMap.toBilinForm_apply, ContinuousLinearMap.toBilinForm_apply, covarianceBilin_multivariateGaussian hp,
      covarianceBilin_apply_eq_cov IsGaussian.memLp_two_id, covariance_map (by fun_prop) (by fun_prop) hm]
    have e : ∀ i : Fin n, (fun x => inner ℝ ((EuclideanSpace.basisFun (Fin n) ℝ).toBasis i) x) ∘ (fun ω => WithLp.toLp 2 (X ω)) =
        fun ω => X ω i := by
      intro i; funext ω
      simp [PiLp.inner_apply]
    rw [e, e, hX.cov]
    simp

/-- Every positive semi-definite variance is that of a random vector. -/
theorem Normal.isNormal_law (hp : g.var.PosSemidef) : IsNormal g.law (fun x => x.ofLp) g := by
  have hG : HasGaussianLaw (fun x : EuclideanSpace ℝ (Fin n) => x.ofLp) g.law := by
    unfold Normal.law
    exact (IsGaussian.hasGaussianLaw_id (μ := multivariateGaussian _ _)).map_equiv (PiLp.continuousLinearEquiv 2 ℝ fun _ : Fin n => ℝ)
  refine ⟨⟨fun i => (hG.eval i).memLp_two, fun i => ?_, fun i j => ?_⟩, hG⟩
  · unfold Normal.law
    have := (EuclideanSpace.proj (𝕜 := ℝ) i).integral_comp_comm
      (IsGaussian.integrable_id (μ := multivariateGaussian (.toLp 2 g.mean) g.var))
    simp only [id_eq, integral_id_multivariateGaussian] at this
    exact this
  · exact covariance_eval_multivariateGaussian hp i j

/-- Random vectors on another probability space. -/
theorem IsNormal.comp {Ω' : Type*} [MeasurableSpace Ω'] {Q : Measure Ω'} {f : Ω' → Ω} (hX : IsNormal P X g) (hf : MeasurePreserving f Q P) :
    IsNormal Q (X ∘ f) g := by
  have hs : ∀ i, AEStronglyMeasurable (fun ω => X ω i) (Q.map f) := fun i => by rw [hf.map_eq]; exact (hX.memLp i).aestronglyMeasurable
  refine ⟨⟨fun i => (hX.memLp i).comp_measurePreserving hf, fun i => ?_, fun i j => ?_⟩, ⟨?_⟩⟩
  · rw [← hX.mean i, ← hf.map_eq, integral_map hf.aemeasurable (hs i)]
    rfl
  · rw [← hX.cov i j]
    conv_rhs => rw [← hf.map_eq]
    rw [covariance_map_fun (hs i) (hs j) hf.aemeasurable]
    rfl
  · rw [← AEMeasurable.map_map_of_aemeasurable (by rw [hf.map_eq]; exact hX.gaussian.aemeasurable) hf.aemeasurable, hf.map_eq]
    exact hX.gaussian.isGaussian_map

/-- Any two normals with positive semi-definite variances are those of independent random vectors. -/
theorem exists_indep (hg : g.var.PosSemidef) {h : Normal k} (hh : h.var.PosSemidef) :
    ∃ (P : Measure (EuclideanSpace ℝ (Fin n) × EuclideanSpace ℝ (Fin k))) (X : _ → Fin n → ℝ) (Y : _ → Fin k → ℝ),
      IsNormal P X g ∧ IsNormal P Y h ∧ IndepFun X Y P := by
  have h1 := (Normal.isNormal_law hg).isProbabilityMeasure
  have h2 := (Normal.isNormal_law hh).isProbabilityMeasure
  exact ⟨g.law.prod h.law, (fun x : EuclideanSpace ℝ (Fin n) => x.ofLp) ∘ Prod.fst,
    (fun x : EuclideanSpace ℝ (Fin k) => x.ofLp) ∘ Prod.snd,
    (Normal.isNormal_law hg).comp measurePreserving_fst, (Normal.isNormal_law hh).comp measurePreserving_snd,
    indepFun_prod (X := fun x : EuclideanSpace ℝ (Fin n) => x.ofLp) (Y := fun x : EuclideanSpace ℝ (Fin k) => x.ofLp)
      (by fun_prop) (by fun_prop)⟩

end Stheno
