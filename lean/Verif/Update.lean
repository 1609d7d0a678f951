import Mathlib.Algebra.Order.Star.Real
import Mathlib.Analysis.Matrix.PosDef
import Verif.Canon

/-!
# Algebra of Gaussian updates

Positivity, interpolation and variance reduction for the update of expectations and covariances by an observation.
-/

namespace Stheno

open Matrix

set_option linter.unusedSectionVars false

variable {V : Type} [AddCommGroup V] [Module ℝ V]

/-- Variances are not negative. -/
def SO.Pos (S : SO V) : Prop := ∀ v, 0 ≤ S.C v v

/-- The linear combination `Σ_a w_a z_a`. -/
noncomputable def comb (zs : List V) (w : Fin zs.length → ℝ) : V := ∑ a, w a • zs.get a

section
variable (S : SO V) (zs : List V)

theorem C_comb (w : Fin zs.length → ℝ) (u : V) : S.C (comb zs w) u = ∑ a, w a * S.C (zs.get a) u := by
  simp [comb]

theorem C_comb_right (w : Fin zs.length → ℝ) (u : V) : S.C u (comb zs w) = ∑ a, w a * S.C (zs.get a) u := by
  rw [S.symm, C_comb]

theorem C_comb_comb (w w' : Fin zs.length → ℝ) : S.C (comb zs w) (comb zs w') = w ⬝ᵥ (gram S zs *ᵥ w') := by
  rw [C_comb]
  refine Finset.sum_congr rfl fun a _ => ?_
  rw [C_comb_right]
  congr 1
  refine Finset.sum_congr rfl fun b _ => ?_
  show w' b * S.C (zs.get b) (zs.get a) = S.C (zs.get a) (zs.get b) * w' b
  rw [S.symm (zs.get b), mul_comm]

theorem gram_symm : (gram S zs).IsSymm := by
  ext a b
  exact S.symm _ _

theorem gram_hermitian : (gram S zs).IsHermitian := by
  rw [IsHermitian, conjTranspose_eq_transpose_of_trivial]
  exact gram_symm S zs

/-- Covariance matrices are positive semi-definite. -/
theorem gram_posSemidef (h : S.Pos) : (gram S zs).PosSemidef := by
  refine PosSemidef.of_dotProduct_mulVec_nonneg (gram_hermitian S zs) fun w => ?_
  have := h (comb zs w)
  rw [C_comb_comb] at this
  simpa using this

/-- The covariances of `u` with `zs`. -/
def covs (u : V) : Fin zs.length → ℝ := fun a => S.C (zs.get a) u

theorem quadSum_eq (W : Matrix (Fin zs.length) (Fin zs.length) ℝ) (u v : V) :
    quadSum S zs W u v = covs S zs u ⬝ᵥ (W *ᵥ covs S zs v) := by
  simp only [quadSum, dotProduct, mulVec, covs, Finset.mul_sum, mul_assoc]

end

section
variable {S S' : SO V} {zs : List V} {noise : Mat} {y : List ℝ} (h : IsUpdate S S' zs noise y)
  (hp : (noisyGram S zs noise).PosDef)
include h hp

/-- The regression of `u` on the observation. -/
noncomputable def weights (S : SO V) (zs : List V) (noise : Mat) (u : V) : Fin zs.length → ℝ :=
  (noisyGram S zs noise)⁻¹ *ᵥ covs S zs u

/-- The posterior variance is the variance of the residual plus that of the noise in the prediction. -/
theorem IsUpdate.residual (u : V) : S'.C u u = S.C (u - comb zs (weights S zs noise u)) (u - comb zs (weights S zs noise u)) +
    weights S zs noise u ⬝ᵥ (noise.sq zs.length *ᵥ weights S zs noise u) := by
  set w := weights S zs noise u with hw
  have hdet : IsUnit (noisyGram S zs noise).det := isUnit_iff_ne_zero.2 hp.det_pos.ne'
  have h1 : noisyGram S zs noise *ᵥ w = covs S zs u := by
    rw [hw, weights, mulVec_mulVec, mul_nonsing_inv _ hdet, one_mulVec]
  have h2 : w ⬝ᵥ covs S zs u = w ⬝ᵥ (gram S zs *ᵥ w) + w ⬝ᵥ (noise.sq zs.length *ᵥ w) := by
    rw [← h1, noisyGram, add_mulVec, dotProduct_add]
  have h3 : S.C u (comb zs w) = w ⬝ᵥ covs S zs u := C_comb_right S zs w u
  have h4 : quadSum S zs (noisyGram S zs noise)⁻¹ u u = w ⬝ᵥ covs S zs u := by
    rw [quadSum_eq, dotProduct_comm]; rfl
  rw [h.C hp, h4]
  simp only [map_sub, LinearMap.sub_apply]
  rw [S.symm (comb zs w) u, h3, C_comb_comb, h2]
  ring

/-- Posterior variances are not negative. -/
theorem IsUpdate.pos (hS : S.Pos) (hn : (noise.sq zs.length).PosSemidef) : S'.Pos := by
  intro u
  rw [h.residual hp]
  have := hn.dotProduct_mulVec_nonneg (weights S zs noise u)
  have := hS (u - comb zs (weights S zs noise u))
  simp only [star_trivial] at *
  linarith

/-- Observing does not increase variances. -/
theorem IsUpdate.le (u : V) : S'.C u u ≤ S.C u u := by
  rw [h.C hp, quadSum_eq]
  have := hp.inv.posSemidef.dotProduct_mulVec_nonneg (covs S zs u)
  simp only [star_trivial] at this
  linarith

/-- Covariances with what was observed. -/
theorem IsUpdate.covs_obs (v : V) (b : Fin zs.length) :
    S'.C (zs.get b) v = (noise.sq zs.length *ᵥ weights S zs noise v) b := by
  have hdet : IsUnit (noisyGram S zs noise).det := isUnit_iff_ne_zero.2 hp.det_pos.ne'
  have h1 : noisyGram S zs noise *ᵥ weights S zs noise v = covs S zs v := by
    rw [weights, mulVec_mulVec, mul_nonsing_inv _ hdet, one_mulVec]
  have h2 : (gram S zs *ᵥ weights S zs noise v) b + (noise.sq zs.length *ᵥ weights S zs noise v) b = covs S zs v b := by
    rw [← h1, noisyGram, add_mulVec]; rfl
  have h3 : quadSum S zs (noisyGram S zs noise)⁻¹ (zs.get b) v = (gram S zs *ᵥ weights S zs noise v) b := by
    rw [quadSum_eq]
    show _ = gram S zs b ⬝ᵥ _
    congr 1
    funext a
    exact S.symm _ _
  rw [h.C hp, h3]
  have : covs S zs v b = S.C (zs.get b) v := rfl
  linarith

/-- Expectations of what was observed. -/
theorem IsUpdate.mean_obs (hy : y.length = zs.length) (b : Fin zs.length) :
    S'.E (zs.get b) = y.getD b 0 -
      (noise.sq zs.length *ᵥ ((noisyGram S zs noise)⁻¹ *ᵥ fun b => y.getD b 0 - S.E (zs.get b))) b := by
  have hdet : IsUnit (noisyGram S zs noise).det := isUnit_iff_ne_zero.2 hp.det_pos.ne'
  set r : Fin zs.length → ℝ := fun b => y.getD b 0 - S.E (zs.get b) with hr
  have h1 : noisyGram S zs noise *ᵥ ((noisyGram S zs noise)⁻¹ *ᵥ r) = r := by
    rw [mulVec_mulVec, mul_nonsing_inv _ hdet, one_mulVec]
  have h2 := congrFun h1 b
  rw [noisyGram, add_mulVec] at h2
  change (gram S zs *ᵥ _) b + (noise.sq zs.length *ᵥ _) b = _ at h2
  rw [h.E hp hy]
  have h3 : ∑ a, S.C (zs.get a) (zs.get b) * ((noisyGram S zs noise)⁻¹ *ᵥ r) a =
      (gram S zs *ᵥ ((noisyGram S zs noise)⁻¹ *ᵥ r)) b := by
    refine Finset.sum_congr rfl fun a _ => ?_
    rw [S.symm]; rfl
  rw [h3]
  have h4 : r b = y.getD b 0 - S.E (zs.get b) := rfl
  rw [noisyGram]
  linarith

end

/-- With noise of positive definite covariance, the covariance of the observation is positive definite. -/
theorem noisyGram_posDef {S : SO V} (hS : S.Pos) (zs : List V) {noise : Mat} (hn : (noise.sq zs.length).PosDef) :
    (noisyGram S zs noise).PosDef := by
  rw [noisyGram, add_comm]
  exact hn.add_posSemidef (gram_posSemidef S zs hS)

/-! ## Conditioning keeps covariances positive -/

theorem SO.observe_pos {V : Type} [AddCommGroup V] [Module ℝ V] {S : SO V} (hS : S.Pos) {zs : List V} {noise : Mat}
    {y : List ℝ} (hr : noise.r = zs.length) (hc : noise.c = zs.length) (hn : (noise.sq zs.length).PosSemidef) :
    (S.observe zs noise y).Pos := by
  by_cases h : (noisyGram S zs noise).PosDef
  · exact (SO.observe_isUpdate hr hc).pos h hS hn
  · rw [SO.observe, dif_neg h]; exact hS

/-- In sparse approximations the covariance of the data given the inducing variables is not negative. -/
theorem sparseNoise_of {V : Type} [AddCommGroup V] [Module ℝ V] {S : SO V} (hS : S.Pos) {zs xs : List V} {o : PseudoData}
    (zr : o.noiseZ.r = zs.length) (zc : o.noiseZ.c = zs.length) (hz : (o.noiseZ.sq zs.length).PosSemidef)
    (h : (noisyGram S zs o.noiseZ).PosDef) (j : Fin xs.length) :
    o.noiseX.mat.e j j ≤ sparseNoise o.method (noisyGram S zs o.noiseZ) (crossGram S zs xs)
      (fun j => S.C (xs.get j) (xs.get j)) (fun j => o.noiseX.mat.e j j) j := by
  have hu := SO.observe_isUpdate (S := S) (y := []) zr zc
  have h1 := hu.pos h hS hz (xs.get j)
  rw [hu.C h, quadSum_eq] at h1
  have h2 : ((crossGram S zs xs)ᵀ * (noisyGram S zs o.noiseZ)⁻¹ * crossGram S zs xs) j j =
      covs S zs (xs.get j) ⬝ᵥ ((noisyGram S zs o.noiseZ)⁻¹ *ᵥ covs S zs (xs.get j)) := by
    rw [Matrix.mul_assoc, mul_apply]
    rfl
  unfold sparseNoise
  cases o.method with
  | fitc => simp only [h2]; linarith
  | vfe => exact le_rfl
  | dtc => exact le_rfl

theorem knDiag_pos {V : Type} [AddCommGroup V] [Module ℝ V] {S : SO V} (hS : S.Pos) {zs xs : List V} {o : PseudoData}
    (zr : o.noiseZ.r = zs.length) (zc : o.noiseZ.c = zs.length) (hz : (o.noiseZ.sq zs.length).PosSemidef)
    (hx : ∀ j < xs.length, 0 < o.noiseX.mat.e j j) {K Z : Mat} {u : List ℝ} (rK : K.r = zs.length) (cZ : Z.c = xs.length)
    (eK : K.sq zs.length = noisyGram S zs o.noiseZ)
    (eZ : ∀ i : Fin zs.length, ∀ j : Fin xs.length, Z.e i j = S.C (zs.get i) (xs.get j))
    (eu : ∀ j : Fin xs.length, u.getD j 0 = S.C (xs.get j) (xs.get j)) (h : (K.sq K.r).PosDef) (j : Fin Z.c) :
    0 < knDiag o.method (K.sq K.r) (fun i j => Z.e i j : Matrix (Fin K.r) (Fin Z.c) ℝ) (fun j => u.getD j 0)
      (fun j => o.noiseX.mat.e j j) j := by
  obtain ⟨r, c, e⟩ := K
  obtain ⟨r', c', e'⟩ := Z
  change r = _ at rK
  change c' = _ at cZ
  subst rK cZ
  change (Mat.sq _ zs.length).PosDef at h
  have := knDiag_eq o.method (fun i j => e' i j : Matrix (Fin zs.length) (Fin xs.length) ℝ) (fun j => u.getD j 0)
    (fun j => o.noiseX.mat.e j j) h
  refine lt_of_lt_of_eq ?_ (congrFun this j).symm
  rw [eK] at h
  rw [eK]
  have e1 : (fun i j => e' i j : Matrix (Fin zs.length) (Fin xs.length) ℝ) = crossGram S zs xs := by
    ext i j; exact eZ i j
  have e2 : (fun j : Fin xs.length => u.getD j 0) = fun j => S.C (xs.get j) (xs.get j) := funext eu
  rw [e1, e2]
  exact lt_of_lt_of_le (hx j j.2) (sparseNoise_of hS zr zc hz h j)

theorem SO.given_pseudo {V : Type} [AddCommGroup V] [Module ℝ V] {S : SO V} {F : PId → RF V} {pu p : PId} {o : PseudoData}
    {zs xs : List V} (hz : F pu o.z = some zs) (hx : F p o.x = some xs) :
    S.given F (.pseudo pu p o) = S.observeSparse zs xs o := by
  show (match F pu o.z, F p o.x with
    | some zs, some xs => S.observeSparse zs xs o
    | _, _ => S) = _
  rw [hz, hx]

theorem SO.observeSparse_pos {V : Type} [AddCommGroup V] [Module ℝ V] {S : SO V} (hS : S.Pos) {zs xs : List V} {o : PseudoData}
    (zr : o.noiseZ.r = zs.length) (zc : o.noiseZ.c = zs.length) (xr : o.noiseX.mat.r = xs.length)
    (xc : o.noiseX.mat.c = xs.length) (hz : (o.noiseZ.sq zs.length).PosSemidef)
    (hx : ∀ j < xs.length, 0 ≤ o.noiseX.mat.e j j) : (S.observeSparse zs xs o).Pos := by
  by_cases h : (noisyGram S zs o.noiseZ).PosDef
  · intro u
    rw [(SO.observeSparse_isUpdate zr zc xr xc).C h]
    have hu := SO.observe_isUpdate (S := S) (y := []) zr zc
    have h1 := hu.pos h hS hz u
    rw [hu.C h] at h1
    refine add_nonneg h1 ?_
    rw [quadSum_eq]
    refine PosSemidef.dotProduct_mulVec_nonneg (x := covs S zs u) (PosSemidef.inv ?_)
    refine h.posSemidef.add ?_
    have hD : (diagonal (sparseNoise o.method (noisyGram S zs o.noiseZ) (crossGram S zs xs)
        (fun j => S.C (xs.get j) (xs.get j)) (fun j => o.noiseX.mat.e j j)))⁻¹.PosSemidef :=
      PosSemidef.inv (PosSemidef.diagonal (Pi.le_def.2 fun j => (hx j j.2).trans (sparseNoise_of hS zr zc hz h j)))
    have := hD.mul_mul_conjTranspose_same (crossGram S zs xs)
    rwa [conjTranspose_eq_transpose_of_trivial] at this
  · rw [SO.observeSparse, dif_neg h]; exact hS

/-- The noise has a positive semi-definite covariance. -/
def Obs.NoisePSD : Obs → Prop
  | .exact _ z noise _ => (noise.sq (numElements z)).PosSemidef
  | .pseudo _ _ o => (o.noiseZ.sq (numElements o.z)).PosSemidef ∧ ∀ j < numElements o.x, 0 ≤ o.noiseX.mat.e j j

/-- The noise of the data has a positive definite covariance. -/
def Obs.NoisePD : Obs → Prop
  | .exact _ z noise _ => (noise.sq (numElements z)).PosDef
  | .pseudo _ _ o => (o.noiseZ.sq (numElements o.z)).PosSemidef ∧ ∀ j < numElements o.x, 0 < o.noiseX.mat.e j j

theorem Obs.NoisePD.psd {o : Obs} (h : o.NoisePD) : o.NoisePSD := by
  cases o with
  | exact => exact PosDef.posSemidef h
  | pseudo => exact ⟨h.1, fun j hj => (h.2 j hj).le⟩

end Stheno
