import Verif.Jitter
import Verif.MoreNoise
import Verif.Sparse

/-!
# Inducing points with jitter

The package `matrix` adds `B.epsilon` to the diagonal of a dense matrix before it takes its Cholesky factor. In `_compute`
(`stheno/model/observations.py:279-336`) and in the posteriors made from it this happens to three matrices: to `K_z` (line 300, and again in
`PosteriorKernel` and `PosteriorMean`), to the local variable `A` (lines 329 and 333-335), and to `self._A` (in `SubspaceKernel`). The matrix
`K_n` is of class `Diagonal`, to which nothing is added.

Observations are of processes of a measure whose own posteriors have exact observations only, so that calls of its means and kernels with jitter
are those of `Jitter`.
-/

namespace Stheno

open Matrix

section Compute
variable {n k : ℕ} (ε : ℝ) (μ : Method) (Kz : Matrix (Fin n) (Fin n) ℝ) (Kzx : Matrix (Fin n) (Fin k) ℝ) (kx noise ybar : Fin k → ℝ)

/-- The local variable `A` (`stheno/model/observations.py:322`) when it is factored. -/
noncomputable def innerAJ : Matrix (Fin n) (Fin n) ℝ := innerA μ (Kz + ε • 1) Kzx kx noise + ε • 1

/-- `self._A` (`stheno/model/observations.py:323`) when it is factored. -/
noncomputable def subspaceAJ : Matrix (Fin n) (Fin n) ℝ := subspaceA μ (Kz + ε • 1) Kzx kx noise + ε • 1

/-- `mu - means[p_z](z)` (`stheno/model/observations.py:329`) when the jitter is `ε`. -/
noncomputable def muShiftJ : Fin n → ℝ :=
  (((chol (Kz + ε • 1))ᵀ)ᵀ * (innerAJ ε μ Kz Kzx kx noise)⁻¹) *ᵥ prodYBar μ (Kz + ε • 1) Kzx kx noise ybar

/-- `self._elbo` (`stheno/model/observations.py:333-336`) when the jitter is `ε`. -/
noncomputable def elboOfJ : ℝ :=
  -(1 / 2) * ((Real.log (((2 * Real.pi) • knMat μ (Kz + ε • 1) Kzx kx noise).det)
      + Real.log (innerAJ ε μ Kz Kzx kx noise).det)
    + (ybar ⬝ᵥ ((knMat μ (Kz + ε • 1) Kzx kx noise)⁻¹ *ᵥ ybar)
      - prodYBar μ (Kz + ε • 1) Kzx kx noise ybar ⬝ᵥ
          ((innerAJ ε μ Kz Kzx kx noise)⁻¹ *ᵥ prodYBar μ (Kz + ε • 1) Kzx kx noise ybar))
    + tracePart μ (Kz + ε • 1) Kzx kx noise)

end Compute

/-- `_compute` (`stheno/model/observations.py:279-336`) returns, when the jitter is `ε`, with the matrices `g` and `y_bar`. -/
structure ComputedJ (ε : ℝ) (w : World) (pu p : PId) (o : PseudoData) (m : MId) (g : Ingredients) (ybar : Fin g.k → ℝ) : Prop where
  Kz : ∃ A K, KernelCallJ ε w m pu pu o.z o.z A ∧ A.add o.noiseZ = some K ∧ K.r = g.n ∧ K.c = g.n ∧ K.sq g.n = g.Kz
  diag : o.noiseX.isDiagonal = true
  chol : (g.Kz + ε • 1).PosDef
  Kzx : ∃ Z, KernelCallJ ε w m pu p o.z o.x Z ∧ Z.r = g.n ∧ Z.c = g.k ∧ ∀ (i : Fin g.n) (j : Fin g.k), Z.e i j = g.Kzx i j
  noise : o.noiseX.mat.r = g.k ∧ o.noiseX.mat.c = g.k ∧ ∀ j : Fin g.k, o.noiseX.mat.e j j = g.noise j
  kx : o.method ≠ .dtc → ∃ u, ElwiseCallJ ε w m p p o.x o.x u ∧ u.length = g.k ∧ ∀ j : Fin g.k, u.getD j 0 = g.kx j
  pos : ∀ j, 0 < knDiag o.method (g.Kz + ε • 1) g.Kzx g.kx g.noise j
  y : ∃ v, MeanCallJ ε w m p o.x v ∧ v.length = g.k ∧ o.y.length = g.k ∧ ∀ j : Fin g.k, o.y.getD j 0 - v.getD j 0 = ybar j
  mz : ∃ v, MeanCallJ ε w m pu o.z v ∧ v.length = g.n
  cholA : (innerAJ ε o.method g.Kz g.Kzx g.kx g.noise).PosDef

/-- The ELBO (`stheno/model/observations.py:209-222`) is `r` when the jitter is `ε`. -/
def ElboJ (ε : ℝ) (w : World) (pu p : PId) (o : PseudoData) (m : MId) (r : ℝ) : Prop :=
  ∃ g ybar, ComputedJ ε w pu p o m g ybar ∧ r = elboOfJ ε o.method g.Kz g.Kzx g.kx g.noise ybar

/-- The mean of the process `q` at `x` given pseudo-observations (`stheno/model/observations.py:265-277`) is `v` when the jitter is `ε`: the
`PosteriorMean` with `K_z` and `mu`. -/
def SparseMeanJ (ε : ℝ) (w : World) (pu p : PId) (o : PseudoData) (m : MId) (q : PId) (x : Input) (v : List ℝ) : Prop :=
  ∃ g ybar u B w', ComputedJ ε w pu p o m g ybar ∧ MeanCallJ ε w m q x u ∧ KernelCallJ ε w m pu q o.z x B ∧
    B.tmulVec ((g.Kz + ε • 1)⁻¹ *ᵥ muShiftJ ε o.method g.Kz g.Kzx g.kx g.noise ybar) = some w' ∧ zipCol (· + ·) u w' = some v

/-- The kernel of the processes `q` and `q'` at `x` and `y` given pseudo-observations (`stheno/model/observations.py:255-263`) is `A` when the jitter is
`ε`: the sum of the `PosteriorKernel` with `K_z` and the `SubspaceKernel` with `self._A`. -/
def SparseKernelJ (ε : ℝ) (w : World) (pu p : PId) (o : PseudoData) (m : MId) (q q' : PId) (x y : Input) (A : Mat) : Prop :=
  ∃ g ybar K B C Q P R, ComputedJ ε w pu p o m g ybar ∧ (subspaceAJ ε o.method g.Kz g.Kzx g.kx g.noise).PosDef ∧
    KernelCallJ ε w m q q' x y K ∧ KernelCallJ ε w m pu q o.z x B ∧ KernelCallJ ε w m pu q' o.z y C ∧
    Mat.quad (g.Kz + ε • 1)⁻¹ B C = some Q ∧ K.sub Q = some P ∧
    Mat.quad (subspaceAJ ε o.method g.Kz g.Kzx g.kx g.noise)⁻¹ B C = some R ∧ P.add R = some A

/-! ## Matrices -/

section
variable {n k : ℕ} {ε : ℝ} {μ : Method} {Kz : Matrix (Fin n) (Fin n) ℝ} {Kzx : Matrix (Fin n) (Fin k) ℝ} {kx noise ybar : Fin k → ℝ}

theorem innerA_posDef (hn : ∀ j, 0 < knDiag μ Kz Kzx kx noise j) : (innerA μ Kz Kzx kx noise).PosDef := by
  have hN : (knMat μ Kz Kzx kx noise).PosDef := posDef_diagonal_iff.2 hn
  unfold innerA
  rw [transpose_transpose]
  exact one_add_posDef (conj_posSemidef hN.inv.posSemidef _)

/-- More variance, larger determinant. -/
theorem log_det_le {A D : Matrix (Fin n) (Fin n) ℝ} (hA : A.PosDef) (hD : D.PosSemidef) : Real.log A.det ≤ Real.log (A + D).det := by
  have hAD := hA.add_posSemidef hD
  have hkl := (C39_kl_zero (g := ⟨0, A⟩) (h := ⟨0, A + D⟩) hA hAD).1
  have ht := trace_mul_nonneg hAD.inv hD
  unfold Normal.kl at hkl
  simp only [sub_self, zero_dotProduct, zero_add] at hkl
  have e : ((A + D)⁻¹ * A).trace = n - ((A + D)⁻¹ * D).trace := by
    have : (A + D)⁻¹ * A + (A + D)⁻¹ * D = 1 := by
      rw [← Matrix.mul_add, nonsing_inv_mul _ (hAD.isUnit.map detMonoidHom)]
    have := congrArg Matrix.trace this
    rw [Matrix.trace_add, Matrix.trace_one, Fintype.card_fin] at this
    linarith
  rw [e] at hkl
  linarith

/-- The jitter in the local variable `A` makes the ELBO smaller. -/
theorem elboOfJ_le (hε : 0 ≤ ε) (hn : ∀ j, 0 < knDiag μ (Kz + ε • 1) Kzx kx noise j) :
    elboOfJ ε μ Kz Kzx kx noise ybar ≤ elboOf μ (Kz + ε • 1) Kzx kx noise ybar := by
  have hA := innerA_posDef hn
  have hD : (ε • (1 : Matrix (Fin n) (Fin n) ℝ)).PosSemidef := PosSemidef.one.smul hε
  have h1 := log_det_le hA hD
  have h2 := quad_le hA hD (prodYBar μ (Kz + ε • 1) Kzx kx noise ybar)
  unfold elboOfJ elboOf innerAJ
  linarith

theorem chol_innerAJ (h : (Kz + ε • 1).PosDef) : chol (Kz + ε • 1) * innerAJ ε μ Kz Kzx kx noise * (chol (Kz + ε • 1))ᵀ =
    sparseA μ (Kz + ε • 1) Kzx kx noise + ε • (Kz + ε • 1) := by
  unfold innerAJ
  rw [Matrix.mul_add, Matrix.add_mul, ← subspaceA_eq μ Kzx kx noise h, mul_smul_comm, Matrix.mul_one, smul_mul_assoc, (chol_spec h).mul]
  rfl

/-- What `y` says about the inducing points. -/
theorem prodYBar_eq (h : Kz.PosDef) : prodYBar μ Kz Kzx kx noise ybar =
    (chol Kz)⁻¹ *ᵥ ((Kzx * (diagonal (sparseNoise μ Kz Kzx kx noise))⁻¹) *ᵥ ybar) := by
  unfold prodYBar knMat iLzKzx
  rw [knDiag_eq μ Kzx kx noise h, transpose_transpose, mulVec_mulVec, Matrix.mul_assoc]

/-- The weights of the posterior mean with jitter. -/
theorem muShiftJ_eq (h : (Kz + ε • 1).PosDef) : (Kz + ε • 1)⁻¹ *ᵥ muShiftJ ε μ Kz Kzx kx noise ybar =
    (sparseA μ (Kz + ε • 1) Kzx kx noise + ε • (Kz + ε • 1))⁻¹ *ᵥ
      ((Kzx * (diagonal (sparseNoise μ (Kz + ε • 1) Kzx kx noise))⁻¹) *ᵥ ybar) := by
  unfold muShiftJ
  rw [prodYBar_eq h, ← chol_innerAJ h, transpose_transpose, mulVec_mulVec, mulVec_mulVec, Matrix.mul_inv_rev, Matrix.mul_inv_rev]
  congr 1
  have e : (Kz + ε • 1)⁻¹ * chol (Kz + ε • 1) = ((chol (Kz + ε • 1))ᵀ)⁻¹ := by
    rw [← chol_inv h, transpose_nonsing_inv, Matrix.mul_assoc, nonsing_inv_mul _ (chol_unit h), Matrix.mul_one]
  simp only [← Matrix.mul_assoc]
  rw [e]

theorem det_innerAJ (h : (Kz + ε • 1).PosDef) : (Kz + ε • 1).det * (innerAJ ε μ Kz Kzx kx noise).det =
    (sparseA μ (Kz + ε • 1) Kzx kx noise + ε • (Kz + ε • 1)).det := by
  rw [← chol_innerAJ h, det_mul, det_mul]
  conv_lhs => rw [← (chol_spec h).mul, det_mul]
  ring

theorem quad_innerAJ (h : (Kz + ε • 1).PosDef) : prodYBar μ (Kz + ε • 1) Kzx kx noise ybar ⬝ᵥ
      ((innerAJ ε μ Kz Kzx kx noise)⁻¹ *ᵥ prodYBar μ (Kz + ε • 1) Kzx kx noise ybar) =
    ((Kzx * (diagonal (sparseNoise μ (Kz + ε • 1) Kzx kx noise))⁻¹) *ᵥ ybar) ⬝ᵥ
      ((sparseA μ (Kz + ε • 1) Kzx kx noise + ε • (Kz + ε • 1))⁻¹ *ᵥ
        ((Kzx * (diagonal (sparseNoise μ (Kz + ε • 1) Kzx kx noise))⁻¹) *ᵥ ybar)) := by
  rw [prodYBar_eq h, ← chol_innerAJ h, Matrix.mul_inv_rev, Matrix.mul_inv_rev, ← transpose_nonsing_inv]
  simp only [← mulVec_mulVec]
  set w := (Kzx *ᵥ _)
  rw [dotProduct_mulVec w, vecMul_transpose]

/-- The trace in the ELBO of VFE, where `d` are the variances that are lost. -/
noncomputable def traceOf (μ : Method) (d noise : Fin k → ℝ) : ℝ :=
  match μ with
  | .vfe => ∑ j, d j / noise j
  | _ => 0

theorem tracePart_eq (h : Kz.PosDef) : tracePart μ Kz Kzx kx noise = traceOf μ (fun j => kx j - (Kzxᵀ * Kz⁻¹ * Kzx) j j) noise := by
  cases μ <;> simp only [tracePart, traceOf, diagCorrection, qxDiag_eq h, knDiag, add_zero]

/-- Everything with jitter in terms of inverses. -/
theorem elboOfJ_eq (h : (Kz + ε • 1).PosDef) (hn : ∀ j, 0 < knDiag μ (Kz + ε • 1) Kzx kx noise j) (hε : 0 ≤ ε) :
    elboOfJ ε μ Kz Kzx kx noise ybar =
      -(1 / 2) * ((Real.log (((2 * Real.pi) • diagonal (sparseNoise μ (Kz + ε • 1) Kzx kx noise)).det)
        + (Real.log (sparseA μ (Kz + ε • 1) Kzx kx noise + ε • (Kz + ε • 1)).det - Real.log (Kz + ε • 1).det))
      + (ybar ⬝ᵥ ((diagonal (sparseNoise μ (Kz + ε • 1) Kzx kx noise))⁻¹ *ᵥ ybar)
        - ((Kzx * (diagonal (sparseNoise μ (Kz + ε • 1) Kzx kx noise))⁻¹) *ᵥ ybar) ⬝ᵥ
      ((sparseA μ (Kz + ε • 1) Kzx kx noise + ε • (Kz + ε • 1))⁻¹ *ᵥ
        ((Kzx * (diagonal (sparseNoise μ (Kz + ε • 1) Kzx kx noise))⁻¹) *ᵥ ybar)))
      + traceOf μ (fun j => kx j - (Kzxᵀ * (Kz + ε • 1)⁻¹ * Kzx) j j) noise) := by
  have hA : (innerAJ ε μ Kz Kzx kx noise).PosDef := (innerA_posDef hn).add_posSemidef (PosSemidef.one.smul hε)
  have hd : Real.log (innerAJ ε μ Kz Kzx kx noise).det =
      Real.log (sparseA μ (Kz + ε • 1) Kzx kx noise + ε • (Kz + ε • 1)).det - Real.log (Kz + ε • 1).det := by
    rw [← det_innerAJ h, Real.log_mul h.det_pos.ne' hA.det_pos.ne']
    ring
  unfold elboOfJ
  rw [quad_innerAJ h, hd, tracePart_eq h]
  unfold knMat
  rw [knDiag_eq μ Kzx kx noise h]

/-! ## The limit -/

section Limit
open Filter Topology
variable {l : Filter ℝ} (h0 : l ≤ 𝓝 0) {K : ℝ → Matrix (Fin n) (Fin n) ℝ} {Z : ℝ → Matrix (Fin n) (Fin k) ℝ} {x y : ℝ → Fin k → ℝ}
  (hK : Tendsto K l (𝓝 Kz)) (hZ : Tendsto Z l (𝓝 Kzx)) (hx : Tendsto x l (𝓝 kx)) (hy : Tendsto y l (𝓝 ybar))

theorem tendsto_matMul {a b c : ℕ} {A : ℝ → Matrix (Fin a) (Fin b) ℝ} {B : ℝ → Matrix (Fin b) (Fin c) ℝ} {A' : Matrix (Fin a) (Fin b) ℝ}
    {B' : Matrix (Fin b) (Fin c) ℝ} (hA : Tendsto A l (𝓝 A')) (hB : Tendsto B l (𝓝 B')) : Tendsto (fun t => A t * B t) l (𝓝 (A' * B')) :=
  ((continuous_fst.matrix_mul continuous_snd).tendsto (A', B')).comp (hA.prodMk_nhds hB)

theorem tendsto_matVec {a b : ℕ} {A : ℝ → Matrix (Fin a) (Fin b) ℝ} {v : ℝ → Fin b → ℝ} {A' : Matrix (Fin a) (Fin b) ℝ}
    {v' : Fin b → ℝ} (hA : Tendsto A l (𝓝 A')) (hv : Tendsto v l (𝓝 v')) : Tendsto (fun t => A t *ᵥ v t) l (𝓝 (A' *ᵥ v')) :=
  ((continuous_fst.matrix_mulVec continuous_snd).tendsto (A', v')).comp (hA.prodMk_nhds hv)

theorem tendsto_transpose {a b : ℕ} {A : ℝ → Matrix (Fin a) (Fin b) ℝ} {A' : Matrix (Fin a) (Fin b) ℝ} (hA : Tendsto A l (𝓝 A')) :
    Tendsto (fun t => (A t)ᵀ) l (𝓝 A'ᵀ) := (continuous_id.matrix_transpose.tendsto A').comp hA

theorem tendsto_diagonal {a : ℕ} {v : ℝ → Fin a → ℝ} {v' : Fin a → ℝ} (hv : Tendsto v l (𝓝 v')) :
    Tendsto (fun t => diagonal (v t)) l (𝓝 (diagonal v')) := (continuous_id.matrix_diagonal.tendsto v').comp hv

theorem tendsto_dot {a : ℕ} {u v : ℝ → Fin a → ℝ} {u' v' : Fin a → ℝ} (hu : Tendsto u l (𝓝 u')) (hv : Tendsto v l (𝓝 v')) :
    Tendsto (fun t => u t ⬝ᵥ v t) l (𝓝 (u' ⬝ᵥ v')) :=
  tendsto_finsetSum _ fun i _ => (tendsto_pi_nhds.1 hu i).mul (tendsto_pi_nhds.1 hv i)

theorem tendsto_matDet {a : ℕ} {A : ℝ → Matrix (Fin a) (Fin a) ℝ} {A' : Matrix (Fin a) (Fin a) ℝ} (hA : Tendsto A l (𝓝 A')) :
    Tendsto (fun t => (A t).det) l (𝓝 A'.det) := ((continuous_id.matrix_det).tendsto A').comp hA

theorem tendsto_matEntry {a b : ℕ} {A : ℝ → Matrix (Fin a) (Fin b) ℝ} {A' : Matrix (Fin a) (Fin b) ℝ} (hA : Tendsto A l (𝓝 A')) (i : Fin a) (j : Fin b) :
    Tendsto (fun t => A t i j) l (𝓝 (A' i j)) := tendsto_pi_nhds.1 (tendsto_pi_nhds.1 hA i) j

include h0 hK in
theorem tendsto_jitter : Tendsto (fun ε => K ε + ε • 1) l (𝓝 Kz) := by
  have : Tendsto (fun ε : ℝ => ε • (1 : Matrix (Fin n) (Fin n) ℝ)) l (𝓝 ((0 : ℝ) • 1)) := (tendsto_id'.2 h0).smul_const _
  simpa using hK.add this

include h0 hK hZ in
theorem tendsto_nystrom (h : Kz.PosDef) : Tendsto (fun ε => (Z ε)ᵀ * (K ε + ε • 1)⁻¹ * Z ε) l (𝓝 (Kzxᵀ * Kz⁻¹ * Kzx)) :=
  tendsto_matMul (tendsto_matMul (tendsto_transpose hZ) (tendsto_inv (tendsto_jitter h0 hK) h.det_pos.ne')) hZ

include h0 hK hZ hx in
theorem tendsto_sparseNoise (h : Kz.PosDef) : Tendsto (fun ε => sparseNoise μ (K ε + ε • 1) (Z ε) (x ε) noise) l (𝓝 (sparseNoise μ Kz Kzx kx noise)) := by
  refine tendsto_pi_nhds.2 fun j => ?_
  cases μ with
  | fitc => exact tendsto_const_nhds.add ((tendsto_pi_nhds.1 hx j).sub (tendsto_matEntry (tendsto_nystrom h0 hK hZ h) j j))
  | vfe => exact tendsto_const_nhds
  | dtc => exact tendsto_const_nhds

theorem diagonal_det_ne {a : ℕ} {v : Fin a → ℝ} (hn : ∀ j, 0 < v j) : (diagonal v).det ≠ 0 := (posDef_diagonal_iff.2 hn).det_pos.ne'

section
variable (h : Kz.PosDef) (hn : ∀ j, 0 < sparseNoise μ Kz Kzx kx noise j)
include h0 hK hZ hx h hn

theorem tendsto_noiseInv : Tendsto (fun ε => (diagonal (sparseNoise μ (K ε + ε • 1) (Z ε) (x ε) noise))⁻¹) l
    (𝓝 (diagonal (sparseNoise μ Kz Kzx kx noise))⁻¹) :=
  tendsto_inv (tendsto_diagonal (tendsto_sparseNoise h0 hK hZ hx h)) (diagonal_det_ne hn)

theorem tendsto_sparseA : Tendsto (fun ε => sparseA μ (K ε + ε • 1) (Z ε) (x ε) noise) l (𝓝 (sparseA μ Kz Kzx kx noise)) :=
  (tendsto_jitter h0 hK).add (tendsto_matMul (tendsto_matMul hZ (tendsto_noiseInv h0 hK hZ hx h hn)) (tendsto_transpose hZ))

theorem tendsto_sparseAJ : Tendsto (fun ε => sparseA μ (K ε + ε • 1) (Z ε) (x ε) noise + ε • (K ε + ε • 1)) l (𝓝 (sparseA μ Kz Kzx kx noise)) := by
  have := (tendsto_sparseA h0 hK hZ hx h hn).add ((tendsto_id'.2 h0).smul (tendsto_jitter h0 hK))
  simpa using this

end

theorem sparseA_posDef' (h : Kz.PosDef) (hn : ∀ j, 0 < sparseNoise μ Kz Kzx kx noise j) : (sparseA μ Kz Kzx kx noise).PosDef :=
  h.add_posSemidef (conj_posSemidef (posDef_diagonal_iff.2 hn).inv.posSemidef _)

section
variable (h : Kz.PosDef) (hn : ∀ j, 0 < sparseNoise μ Kz Kzx kx noise j)
include h0 hK hZ hx h hn

/-- The variance that is added back. -/
theorem tendsto_subspace (hp : ∀ᶠ ε in l, (K ε + ε • 1).PosDef) :
    Tendsto (fun ε => (subspaceAJ ε μ (K ε) (Z ε) (x ε) noise)⁻¹) l (𝓝 (sparseA μ Kz Kzx kx noise)⁻¹) := by
  have := tendsto_inv (tendsto_jitter h0 (tendsto_sparseA h0 hK hZ hx h hn)) (sparseA_posDef' h hn).det_pos.ne'
  refine this.congr' (hp.mono fun ε hε => ?_)
  show _ = (subspaceA μ (K ε + ε • 1) (Z ε) (x ε) noise + ε • 1)⁻¹
  rw [subspaceA_eq μ _ _ _ hε]

include hy

theorem tendsto_projected : Tendsto (fun ε => (Z ε * (diagonal (sparseNoise μ (K ε + ε • 1) (Z ε) (x ε) noise))⁻¹) *ᵥ y ε) l
    (𝓝 ((Kzx * (diagonal (sparseNoise μ Kz Kzx kx noise))⁻¹) *ᵥ ybar)) :=
  tendsto_matVec (tendsto_matMul hZ (tendsto_noiseInv h0 hK hZ hx h hn)) hy

/-- The weights of the posterior mean. -/
theorem tendsto_sparseWeights (hp : ∀ᶠ ε in l, (K ε + ε • 1).PosDef) :
    Tendsto (fun ε => (K ε + ε • 1)⁻¹ *ᵥ muShiftJ ε μ (K ε) (Z ε) (x ε) noise (y ε)) l (𝓝 (sparseWeights μ Kz Kzx kx noise ybar)) := by
  have := tendsto_matVec (tendsto_inv (tendsto_sparseAJ h0 hK hZ hx h hn) (sparseA_posDef' h hn).det_pos.ne')
    (tendsto_projected h0 hK hZ hx hy h hn)
  exact this.congr' (hp.mono fun ε hε => (muShiftJ_eq hε).symm)

/-- The ELBO. -/
theorem tendsto_elbo (hp : ∀ᶠ ε in l, (K ε + ε • 1).PosDef ∧ (∀ j, 0 < knDiag μ (K ε + ε • 1) (Z ε) (x ε) noise j) ∧ 0 ≤ ε) :
    Tendsto (fun ε => elboOfJ ε μ (K ε) (Z ε) (x ε) noise (y ε)) l (𝓝 (elboOf μ Kz Kzx kx noise ybar)) := by
  have e0 : elboOf μ Kz Kzx kx noise ybar = elboOfJ 0 μ Kz Kzx kx noise ybar := by simp only [elboOf, elboOfJ, innerAJ, zero_smul, add_zero]
  have h' : (Kz + (0 : ℝ) • 1).PosDef := by simpa using h
  have hn' : ∀ j, 0 < knDiag μ (Kz + (0 : ℝ) • 1) Kzx kx noise j := by
    rw [knDiag_eq μ _ _ _ h']
    simpa using hn
  rw [e0, elboOfJ_eq h' hn' le_rfl]
  refine Tendsto.congr' (hp.mono fun ε hε => (elboOfJ_eq hε.1 hε.2.1 hε.2.2).symm) ?_
  simp only [zero_smul, add_zero]
  have t1 := tendsto_sparseNoise (μ := μ) (noise := noise) h0 hK hZ hx h
  have t2 := tendsto_sparseAJ h0 hK hZ hx h hn
  have t3 := tendsto_projected h0 hK hZ hx hy h hn
  have t4 := tendsto_inv t2 (sparseA_posDef' h hn).det_pos.ne'
  have t5 : Tendsto (fun ε => ((2 * Real.pi) • diagonal (sparseNoise μ (K ε + ε • 1) (Z ε) (x ε) noise)).det) l
      (𝓝 ((2 * Real.pi) • diagonal (sparseNoise μ Kz Kzx kx noise)).det) := tendsto_matDet ((tendsto_diagonal t1).const_smul _)
  refine tendsto_const_nhds.mul (((Tendsto.add ?_ (((tendsto_matDet t2).log (sparseA_posDef' h hn).det_pos.ne').sub
    ((tendsto_matDet (tendsto_jitter h0 hK)).log h.det_pos.ne'))).add ((tendsto_dot hy (tendsto_matVec (tendsto_noiseInv h0 hK hZ hx h hn) hy)).sub
      (tendsto_dot t3 (tendsto_matVec t4 t3)))).add ?_)
  · refine t5.log ?_
    rw [det_smul]
    exact mul_ne_zero (pow_ne_zero _ (by positivity)) (diagonal_det_ne hn)
  · cases μ with
    | vfe => exact tendsto_finsetSum _ fun j _ => ((tendsto_pi_nhds.1 hx j).sub (tendsto_matEntry (tendsto_nystrom h0 hK hZ h) j j)).div_const _
    | fitc => exact tendsto_const_nhds
    | dtc => exact tendsto_const_nhds

end

end Limit

end

end Stheno
