import Verif.Props.Gain
import Verif.Props.Express
import Verif.Props.Sure

/-!
# C68: linear models
-/

namespace Stheno

open Matrix

/-! ## Bayesian linear regression -/

section
variable {n k : ℕ} {D : Matrix (Fin n) (Fin k) ℝ} {L : Matrix (Fin k) (Fin k) ℝ} {N : Matrix (Fin n) (Fin n) ℝ}

/-- The precision of weights given observations `D w` with noise. -/
noncomputable def precision (L : Matrix (Fin k) (Fin k) ℝ) (D : Matrix (Fin n) (Fin k) ℝ) (N : Matrix (Fin n) (Fin n) ℝ) : Matrix (Fin k) (Fin k) ℝ :=
  L⁻¹ + Dᵀ * N⁻¹ * D

theorem posDef_precision (hL : L.PosDef) (hN : N.PosDef) : (precision L D N).PosDef := by
  unfold precision
  refine hL.inv.add_posSemidef ?_
  have := hN.inv.posSemidef.conjTranspose_mul_mul_same D
  rwa [conjTranspose_eq_transpose_of_trivial] at this

theorem posDef_evidence (hL : L.PosDef) (hN : N.PosDef) : (D * L * Dᵀ + N).PosDef := by
  refine PosDef.posSemidef_add ?_ hN
  have := hL.posSemidef.mul_mul_conjTranspose_same D
  rwa [conjTranspose_eq_transpose_of_trivial] at this

theorem precision_gain (hL : L.PosDef) (hN : N.PosDef) : (precision L D N)⁻¹ * (Dᵀ * N⁻¹) = L * Dᵀ * (D * L * Dᵀ + N)⁻¹ := by
  have uL := hL.isUnit
  have uN := hN.isUnit
  have uP := (posDef_precision (D := D) hL hN).isUnit
  have uK := (posDef_evidence (D := D) hL hN).isUnit
  have key : Dᵀ * N⁻¹ * (D * L * Dᵀ + N) = precision L D N * (L * Dᵀ) := by
    unfold precision
    rw [Matrix.mul_add, Matrix.add_mul, Matrix.mul_assoc (Dᵀ) N⁻¹ N, nonsing_inv_mul _ ((isUnit_iff_isUnit_det _).1 uN), Matrix.mul_one, ← Matrix.mul_assoc L⁻¹ L,
      nonsing_inv_mul _ ((isUnit_iff_isUnit_det _).1 uL), Matrix.one_mul, add_comm]
    simp only [Matrix.mul_assoc]
  calc (precision L D N)⁻¹ * (Dᵀ * N⁻¹) = (precision L D N)⁻¹ * (Dᵀ * N⁻¹ * (D * L * Dᵀ + N)) * (D * L * Dᵀ + N)⁻¹ := by
        rw [Matrix.mul_assoc, Matrix.mul_assoc, mul_nonsing_inv _ ((isUnit_iff_isUnit_det _).1 uK), Matrix.mul_one]
    _ = L * Dᵀ * (D * L * Dᵀ + N)⁻¹ := by
        rw [key, ← Matrix.mul_assoc, nonsing_inv_mul _ ((isUnit_iff_isUnit_det _).1 uP), Matrix.one_mul]

/-- Weight space is function space: covariances. -/
theorem precision_cov (hL : L.PosDef) (hN : N.PosDef) : L - L * Dᵀ * (D * L * Dᵀ + N)⁻¹ * (D * L) = (precision L D N)⁻¹ := by
  have uL := hL.isUnit
  have uP := (posDef_precision (D := D) hL hN).isUnit
  have hl : L⁻¹ * L = 1 := nonsing_inv_mul _ ((isUnit_iff_isUnit_det _).1 uL)
  rw [← precision_gain hL hN]
  calc L - (precision L D N)⁻¹ * (Dᵀ * N⁻¹) * (D * L) = (precision L D N)⁻¹ * (precision L D N * L - Dᵀ * N⁻¹ * (D * L)) := by
        rw [Matrix.mul_sub, ← Matrix.mul_assoc _ (precision L D N) L, nonsing_inv_mul _ ((isUnit_iff_isUnit_det _).1 uP), Matrix.one_mul]
        simp only [Matrix.mul_assoc]
    _ = (precision L D N)⁻¹ := by
        unfold precision
        rw [Matrix.add_mul, hl, ← Matrix.mul_assoc (Dᵀ * N⁻¹) D L, add_sub_cancel_right, Matrix.mul_one]

/-- Weight space is function space: means. -/
theorem precision_mean (hL : L.PosDef) (hN : N.PosDef) (μ : Fin k → ℝ) (y : Fin n → ℝ) :
    μ + (L * Dᵀ) *ᵥ ((D * L * Dᵀ + N)⁻¹ *ᵥ (y - D *ᵥ μ)) = (precision L D N)⁻¹ *ᵥ (L⁻¹ *ᵥ μ + Dᵀ *ᵥ (N⁻¹ *ᵥ y)) := by
  have uP := (posDef_precision (D := D) hL hN).isUnit
  have hμ : μ = (precision L D N)⁻¹ *ᵥ (L⁻¹ *ᵥ μ + Dᵀ *ᵥ (N⁻¹ *ᵥ (D *ᵥ μ))) := by
    have : L⁻¹ *ᵥ μ + Dᵀ *ᵥ (N⁻¹ *ᵥ (D *ᵥ μ)) = precision L D N *ᵥ μ := by
      unfold precision
      rw [add_mulVec]
      simp only [mulVec_mulVec, Matrix.mul_assoc]
    rw [this, mulVec_mulVec, nonsing_inv_mul _ ((isUnit_iff_isUnit_det _).1 uP), one_mulVec]
  have h1 : (L * Dᵀ) *ᵥ ((D * L * Dᵀ + N)⁻¹ *ᵥ (y - D *ᵥ μ)) = (precision L D N)⁻¹ *ᵥ (Dᵀ *ᵥ (N⁻¹ *ᵥ (y - D *ᵥ μ))) := by
    rw [mulVec_mulVec, ← precision_gain hL hN]
    simp only [mulVec_mulVec]
  rw [h1]
  nth_rewrite 1 [hμ]
  rw [← mulVec_add]
  congr 1
  rw [mulVec_sub, mulVec_sub]
  abel

/-- Minus twice the logarithm of the density of weights and data, up to a constant. -/
noncomputable def penalised (L : Matrix (Fin k) (Fin k) ℝ) (D : Matrix (Fin n) (Fin k) ℝ) (N : Matrix (Fin n) (Fin n) ℝ) (μ : Fin k → ℝ) (y : Fin n → ℝ) (β : Fin k → ℝ) : ℝ :=
  (y - D *ᵥ β) ⬝ᵥ (N⁻¹ *ᵥ (y - D *ᵥ β)) + (β - μ) ⬝ᵥ (L⁻¹ *ᵥ (β - μ))

/-- The posterior mean of the weights is the only solution of penalised least squares. -/
theorem penalised_eq (hL : L.PosDef) (hN : N.PosDef) (μ : Fin k → ℝ) (y : Fin n → ℝ) (β : Fin k → ℝ) :
    penalised L D N μ y β = penalised L D N μ y ((precision L D N)⁻¹ *ᵥ (L⁻¹ *ᵥ μ + Dᵀ *ᵥ (N⁻¹ *ᵥ y))) +
      (β - (precision L D N)⁻¹ *ᵥ (L⁻¹ *ᵥ μ + Dᵀ *ᵥ (N⁻¹ *ᵥ y))) ⬝ᵥ (precision L D N *ᵥ (β - (precision L D N)⁻¹ *ᵥ (L⁻¹ *ᵥ μ + Dᵀ *ᵥ (N⁻¹ *ᵥ y)))) := by
  have uP := (posDef_precision (D := D) hL hN).isUnit
  set b := (precision L D N)⁻¹ *ᵥ (L⁻¹ *ᵥ μ + Dᵀ *ᵥ (N⁻¹ *ᵥ y)) with hb
  have hP : precision L D N *ᵥ b = L⁻¹ *ᵥ μ + Dᵀ *ᵥ (N⁻¹ *ᵥ y) := by
    rw [hb, mulVec_mulVec, mul_nonsing_inv _ ((isUnit_iff_isUnit_det _).1 uP), one_mulVec]
  have sN : ∀ u v : Fin n → ℝ, u ⬝ᵥ (N⁻¹ *ᵥ v) = v ⬝ᵥ (N⁻¹ *ᵥ u) := fun u v => by
    rw [dotProduct_mulVec, ← mulVec_transpose, show (N⁻¹)ᵀ = N⁻¹ from hN.inv.isHermitian, dotProduct_comm]
  have sL : ∀ u v : Fin k → ℝ, u ⬝ᵥ (L⁻¹ *ᵥ v) = v ⬝ᵥ (L⁻¹ *ᵥ u) := fun u v => by
    rw [dotProduct_mulVec, ← mulVec_transpose, show (L⁻¹)ᵀ = L⁻¹ from hL.inv.isHermitian, dotProduct_comm]
  have hz : (D *ᵥ (β - b)) ⬝ᵥ (N⁻¹ *ᵥ (y - D *ᵥ b)) = (β - b) ⬝ᵥ (L⁻¹ *ᵥ (b - μ)) := by
    have : Dᵀ *ᵥ (N⁻¹ *ᵥ (y - D *ᵥ b)) = L⁻¹ *ᵥ (b - μ) := by
      have h1 : precision L D N *ᵥ b = L⁻¹ *ᵥ b + Dᵀ *ᵥ (N⁻¹ *ᵥ (D *ᵥ b)) := by
        unfold precision
        rw [add_mulVec]
        simp only [mulVec_mulVec, Matrix.mul_assoc]
      rw [h1] at hP
      rw [mulVec_sub, mulVec_sub, mulVec_sub, sub_eq_sub_iff_add_eq_add, add_comm, ← hP]
    rw [← this, dotProduct_mulVec (β - b) Dᵀ, vecMul_transpose]
  have e1 : y - D *ᵥ β = (y - D *ᵥ b) - D *ᵥ (β - b) := by rw [mulVec_sub]; abel
  have e2 : β - μ = (b - μ) + (β - b) := by abel
  have e3 : (β - b) ⬝ᵥ (precision L D N *ᵥ (β - b)) = (D *ᵥ (β - b)) ⬝ᵥ (N⁻¹ *ᵥ (D *ᵥ (β - b))) + (β - b) ⬝ᵥ (L⁻¹ *ᵥ (β - b)) := by
    unfold precision
    rw [add_mulVec, dotProduct_add, add_comm, ← mulVec_mulVec, ← mulVec_mulVec, dotProduct_mulVec (β - b) Dᵀ, vecMul_transpose]
  rw [e3]
  unfold penalised
  rw [e1, e2]
  generalize y - D *ᵥ b = u at hz ⊢
  generalize D *ᵥ (β - b) = v at hz ⊢
  generalize b - μ = s at hz ⊢
  generalize β - b = t at hz ⊢
  rw [mulVec_sub, mulVec_add, sub_dotProduct, dotProduct_sub, dotProduct_sub, add_dotProduct, dotProduct_add, dotProduct_add, sN u v, sL s t, hz]
  ring

/-- Determinants of the evidence. -/
theorem precision_det (hL : L.PosDef) (hN : N.PosDef) : (D * L * Dᵀ + N).det = N.det * L.det * (precision L D N).det := by
  have uN := (isUnit_iff_isUnit_det _).1 hN.isUnit
  have uL := (isUnit_iff_isUnit_det _).1 hL.isUnit
  have e1 : D * L * Dᵀ + N = N * (1 + (N⁻¹ * D) * (L * Dᵀ)) := by
    rw [Matrix.mul_add, Matrix.mul_one, ← Matrix.mul_assoc N, ← Matrix.mul_assoc N, mul_nonsing_inv _ uN, Matrix.one_mul, add_comm, Matrix.mul_assoc]
  have e2 : 1 + (L * Dᵀ) * (N⁻¹ * D) = L * precision L D N := by
    unfold precision
    rw [Matrix.mul_add, mul_nonsing_inv _ uL]
    simp only [Matrix.mul_assoc]
  rw [e1, det_mul, det_one_add_mul_comm, e2, det_mul, mul_assoc]

/-- Residuals of the evidence are the penalised residuals of the best weights. -/
theorem precision_quad (hL : L.PosDef) (hN : N.PosDef) (μ : Fin k → ℝ) (y : Fin n → ℝ) :
    (y - D *ᵥ μ) ⬝ᵥ ((D * L * Dᵀ + N)⁻¹ *ᵥ (y - D *ᵥ μ)) = penalised L D N μ y ((precision L D N)⁻¹ *ᵥ (L⁻¹ *ᵥ μ + Dᵀ *ᵥ (N⁻¹ *ᵥ y))) := by
  rw [← precision_mean hL hN]
  have uN := (isUnit_iff_isUnit_det _).1 hN.isUnit
  have uL := (isUnit_iff_isUnit_det _).1 hL.isUnit
  have uK := (isUnit_iff_isUnit_det _).1 (posDef_evidence (D := D) hL hN).isUnit
  set r := y - D *ᵥ μ with hr
  have hz' : (D * L * Dᵀ + N) *ᵥ ((D * L * Dᵀ + N)⁻¹ *ᵥ r) = r := by rw [mulVec_mulVec, mul_nonsing_inv _ uK, one_mulVec]
  generalize (D * L * Dᵀ + N)⁻¹ *ᵥ r = z at hz' ⊢
  have e1 : y - D *ᵥ (μ + (L * Dᵀ) *ᵥ z) = N *ᵥ z := by
    rw [mulVec_add, ← sub_sub, ← hr, ← hz', add_mulVec, mulVec_mulVec, ← Matrix.mul_assoc, add_sub_cancel_left]
  unfold penalised
  rw [e1, add_sub_cancel_left, mulVec_mulVec, mulVec_mulVec, nonsing_inv_mul _ uN, one_mulVec, ← Matrix.mul_assoc, nonsing_inv_mul _ uL, Matrix.one_mul]
  have sL : (L * Dᵀ)ᵀ = D * L := by rw [transpose_mul, transpose_transpose, show Lᵀ = L from hL.isHermitian]
  rw [dotProduct_comm ((L * Dᵀ) *ᵥ z), dotProduct_mulVec, ← mulVec_transpose, sL, mulVec_mulVec, ← add_dotProduct, ← add_mulVec, add_comm N, hz']

end

/-! ## Programs -/

section
variable {G : Dom} {D : PId → ℕ} {ops b : List Op} {m m1 : MId} {fs : List Fdd} {k : ℕ} {w : Fin k → PId} {μ : Fin k → ℝ} {L : Matrix (Fin k) (Fin k) ℝ} {p q : PId}

/-- Processes that are random numbers: calls do not depend on the rows. They have means `μ` and covariances `L`. -/
structure Weights (G : Dom) (ops : List Op) (m : MId) (w : Fin k → PId) (μ : Fin k → ℝ) (L : Matrix (Fin k) (Fin k) ℝ) : Prop where
  different : Function.Injective w
  attached : ∀ i, Attached (runOps ops {}) m (w i)
  mean : ∀ i y, G (w i) y → MeanCall (runOps ops {}) m (w i) (.num [y]) [μ i]
  cov : ∀ i j y z, G (w i) y → G (w j) z → ∀ A, KernelCall (runOps ops {}) m (w i) (w j) (.num [y]) (.num [z]) A → A.e 0 0 = L i j

/-- A process is the value of an expression that is `c(x) + Σ φᵢ(x) wᵢ` if it is evaluated with numbers for the processes `wᵢ`. -/
structure LinearIn (ops : List Op) (w : Fin k → PId) (φ : Pt → Fin k → ℝ) (c : Pt → ℝ) (p : PId) : Prop where
  expr : ∃ before ord e, RunsExpr ops before ord e p ∧ e.Linear ∧ (∀ q ∈ e.vars, ∃ i, q = w i) ∧
    ∀ (v : PId → ℝ) x, e.value 1 (fun q _ => v q) x = c x + ∑ i, φ x i * v (w i)

/-- With another number in the place of one. -/
theorem value_affine {e : PyExpr} {φ : Pt → Fin k → ℝ} {c : Pt → ℝ} {x : Pt} (h : ∀ (v : PId → ℝ) x, e.value 1 (fun q _ => v q) x = c x + ∑ i, φ x i * v (w i)) (a : ℝ) (v : PId → ℝ) :
    e.value a (fun q _ => v q) x = a * c x + ∑ i, φ x i * v (w i) := by
  have e1 := value_map (LinearMap.fst ℝ ℝ ℝ) (1, 1) (fun q _ => (v q, 0)) e x
  have e2 := value_map (LinearMap.snd ℝ ℝ ℝ) (1, 1) (fun q _ => (v q, 0)) e x
  have e3 := value_map (LinearMap.fst ℝ ℝ ℝ + (a - 1) • LinearMap.snd ℝ ℝ ℝ) (1, 1) (fun q _ => (v q, 0)) e x
  simp only [LinearMap.fst_apply, LinearMap.snd_apply, LinearMap.add_apply, LinearMap.smul_apply, smul_eq_mul, mul_one, mul_zero, add_zero, add_sub_cancel] at e1 e2 e3
  rw [← e3, e1, e2, h v, h fun _ => 0]
  simp only [mul_zero, Finset.sum_const_zero]
  ring

variable {φ ψ : Pt → Fin k → ℝ} {c d : Pt → ℝ}

/-- Linear functions of the values of linear combinations of weights. -/
theorem LinearIn.expand (h : Regular G ops) (hi : Function.Injective w) (hp : LinearIn ops w φ c p) (ha : Attached (runOps ops {}) m p) {x : Pt} (hx : G p x)
    (T : RV →ₗ[ℝ] ℝ) {a : ℝ} {t : Fin k → ℝ} (h1 : T (reading ops).one = a)
    (ht : ∀ i y, Attached (runOps ops {}) m (w i) → G (w i) y → T (pointOf ((reading ops).F m (w i)) y) = t i) :
    T (pointOf ((reading ops).F m p) x) = a * c x + ∑ i, φ x i * t i := by
  obtain ⟨before, ord, e, he, hl, hv, hval⟩ := hp.expr
  obtain ⟨hat, hF⟩ := h.express he hl ha (.one hx)
  have hz : pointOf ((reading ops).F m p) x = e.value (reading ops).one (fun p => pointOf ((reading ops).F m p)) x := by
    rw [pointOf, hF]
    rfl
  have hc : e.value (T (reading ops).one) (fun q y => T (pointOf ((reading ops).F m q) y)) x = e.value a (fun q _ => Function.extend w t 0 q) x := by
    rw [h1]
    refine value_congr fun py hpy => ?_
    obtain ⟨i, hq⟩ := hv _ (needs_vars hpy)
    have hG := he.made.rows h hl hx py hpy
    have hA := hat _ (needs_vars hpy)
    rw [hq] at hG hA ⊢
    rw [ht i _ hA hG, hi.extend_apply]
  rw [hz, value_map, hc, value_affine hval]
  simp only [hi.extend_apply]

theorem Weights.E (h : Regular G ops) (hw : Weights G ops m w μ L) (i : Fin k) {y : Pt} (hy : G (w i) y) :
    ((reading ops).S m).E (pointOf ((reading ops).F m (w i)) y) = μ i := by
  have := (h.calls (hw.attached i) (.one hy) (h.point (hw.attached i) hy)).1 _ (hw.mean i y hy)
  simpa using this.symm

theorem Weights.C (h : Regular G ops) (hw : Weights G ops m w μ L) (i j : Fin k) {y z : Pt} (hy : G (w i) y) (hz : G (w j) z) :
    ((reading ops).S m).C (pointOf ((reading ops).F m (w i)) y) (pointOf ((reading ops).F m (w j)) z) = L i j := by
  obtain ⟨B, hB, -⟩ := h.kernel (hw.attached i) (hw.attached j) (.one hy) (.one hz)
  rw [← hw.cov i j y z hy hz B hB,
    (h.kernel_eq (hw.attached i) (hw.attached j) (.one hy) (.one hz) hB (h.point (hw.attached i) hy) (h.point (hw.attached j) hz)).e 0 (by simp [covMat]) 0 (by simp [covMat])]
  simp [covMat]

theorem LinearIn.E (h : Regular G ops) (hw : Weights G ops m w μ L) (hp : LinearIn ops w φ c p) (ha : Attached (runOps ops {}) m p) {x : Pt} (hx : G p x) :
    ((reading ops).S m).E (pointOf ((reading ops).F m p) x) = c x + ∑ i, φ x i * μ i := by
  rw [hp.expand h hw.different ha hx _ (h.reads.one_E m) fun i y _ hy => hw.E h i hy, one_mul]

theorem LinearIn.cross (h : Regular G ops) (hw : Weights G ops m w μ L) (hp : LinearIn ops w φ c p) (ha : Attached (runOps ops {}) m p) {x : Pt} (hx : G p x) (j : Fin k) {y : Pt}
    (hy : G (w j) y) : ((reading ops).S m).C (pointOf ((reading ops).F m p) x) (pointOf ((reading ops).F m (w j)) y) = ∑ i, φ x i * L i j := by
  rw [← LinearMap.flip_apply]
  rw [hp.expand h hw.different ha hx _ (a := 0) (by rw [LinearMap.flip_apply, h.reads.one_C]) fun i z _ hz => by rw [LinearMap.flip_apply]; exact hw.C h i j hz hy]
  rw [zero_mul, zero_add]

theorem LinearIn.C (h : Regular G ops) (hw : Weights G ops m w μ L) (hp : LinearIn ops w φ c p) (ha : Attached (runOps ops {}) m p) {x : Pt} (hx : G p x)
    (hq : LinearIn ops w ψ d q) (hb : Attached (runOps ops {}) m q) {y : Pt} (hy : G q y) :
    ((reading ops).S m).C (pointOf ((reading ops).F m p) x) (pointOf ((reading ops).F m q) y) = ∑ i, ∑ j, φ x i * L i j * ψ y j := by
  rw [((reading ops).S m).symm, ← LinearMap.flip_apply]
  rw [hq.expand h hw.different hb hy _ (a := 0) (by rw [LinearMap.flip_apply, h.reads.one_C]) fun j z _ hz => by
    rw [LinearMap.flip_apply, ((reading ops).S m).symm]; exact hp.cross h hw ha hx j hz]
  rw [zero_mul, zero_add, Finset.sum_comm]
  refine Finset.sum_congr rfl fun j _ => ?_
  rw [Finset.mul_sum]
  exact Finset.sum_congr rfl fun i _ => by ring

theorem Regular.values_at (h : Regular G ops) (ha : Attached (runOps ops {}) m p) {xs : List Pt} (hx : Rows (G p) xs) :
    (reading ops).F m p (.num xs) = some (xs.map (pointOf ((reading ops).F m p))) := by
  have := h.fdd_value (f := ⟨p, .num xs, eye xs.length⟩) (m := m) ⟨xs, rfl, hx, rfl, rfl⟩ ha
  simpa [Fdd.points, Function.comp_def] using this

/-- **C68.** In regular programs: the mean of `c(x) + Σ φᵢ(x) wᵢ` is `c(x) + Σ φᵢ(x) μᵢ`. -/
theorem C68_mean (h : Regular G ops) (hw : Weights G ops m w μ L) (hp : LinearIn ops w φ c p) (ha : Attached (runOps ops {}) m p) {xs : List Pt} (hx : Rows (G p) xs) :
    MeanCall (runOps ops {}) m p (.num xs) (xs.map fun x => c x + ∑ i, φ x i * μ i) := by
  obtain ⟨v, hc, -⟩ := h.mean ha hx
  rw [(h.calls ha hx (h.values_at ha hx)).1 v hc, List.map_map] at hc
  rwa [List.map_congr_left fun x hx' => (hp.E h hw ha (hx.2 x hx')).symm]

/-- **C68.** In regular programs: the covariances of `c(x) + Σ φᵢ(x) wᵢ` and `d(x) + Σ ψᵢ(x) wᵢ` are `Σ φᵢ(x) Lᵢⱼ ψⱼ(y)`. -/
theorem C68_kernel (h : Regular G ops) (hw : Weights G ops m w μ L) (hp : LinearIn ops w φ c p) (ha : Attached (runOps ops {}) m p) {xs : List Pt} (hx : Rows (G p) xs)
    (hq : LinearIn ops w ψ d q) (hb : Attached (runOps ops {}) m q) {ys : List Pt} (hy : Rows (G q) ys) {A : Mat} (hA : KernelCall (runOps ops {}) m p q (.num xs) (.num ys) A) :
    A.r = xs.length ∧ A.c = ys.length ∧ ∀ (i j : ℕ) (hi : i < xs.length) (hj : j < ys.length), A.e i j = ∑ a, ∑ b, φ xs[i] a * L a b * ψ ys[j] b := by
  have hE := h.kernel_eq ha hb hx hy hA (h.values_at ha hx) (h.values_at hb hy)
  refine ⟨by rw [hE.r]; simp [covMat], by rw [hE.c]; simp [covMat], fun i j hi hj => ?_⟩
  rw [hE.e i (by simpa [covMat] using hi) j (by simpa [covMat] using hj)]
  simp only [covMat, List.getD_eq_getElem?_getD, List.getElem?_map, List.getElem?_eq_getElem hi, List.getElem?_eq_getElem hj, Option.map_some, Option.getD_some]
  exact hp.C h hw ha (hx.2 _ (List.getElem_mem hi)) hq hb (hy.2 _ (List.getElem_mem hj))

/-- The features at the points of FDDs. -/
def designOf (φ : PId → Pt → Fin k → ℝ) (fs : List Fdd) : Matrix (Fin (pointsOf fs).length) (Fin k) ℝ := fun i a => φ (pointsOf fs)[i].1 (pointsOf fs)[i].2 a

/-- What is added to the weights at the points of FDDs. -/
def offsetOf (c : PId → Pt → ℝ) (fs : List Fdd) : Fin (pointsOf fs).length → ℝ := fun i => c (pointsOf fs)[i].1 (pointsOf fs)[i].2

/-- The noise of FDDs. -/
def noiseAt (fs : List Fdd) : Matrix (Fin (pointsOf fs).length) (Fin (pointsOf fs).length) ℝ := fun i j => (noiseOf fs).e i j

theorem FitsF.point {f : Fdd} (hf : FitsF G f) {px : PId × Pt} (hp : px ∈ f.points) : px.1 = f.p ∧ G f.p px.2 := by
  obtain ⟨xs, hx, cx, -⟩ := hf
  unfold Fdd.points at hp
  rw [hx] at hp
  obtain ⟨x, hx', rfl⟩ := List.mem_map.1 hp
  exact ⟨rfl, cx.2 x hx'⟩

/-- **C68.** In regular programs, in all notations and with missing data: condition on noisy linear combinations of weights. The posterior of the weights is that of Bayesian linear
regression: the precision is `L⁻¹ + XᵀN⁻¹X` and the mean is `(L⁻¹ + XᵀN⁻¹X)⁻¹(L⁻¹μ + XᵀN⁻¹(y - c))`, where `X` are the features at the data. -/
theorem C68_condition {φ : PId → Pt → Fin k → ℝ} {c : PId → Pt → ℝ} {l : List (Fdd × Vals)} (h : Regular G ops) (ht : Tells (Dead G) D ops) (hl : ∀ e ∈ l, FitsV G e)
    (hA : AtAvailable fs l) (hc : Conditioned ops b m l m1) (hw : Weights G ops m w μ L) (hb : ∀ i, Attached (runOps b {}) m (w i))
    (hfs : ∀ f ∈ fs, LinearIn ops w (φ f.p) (c f.p) f.p) (hL : L.PosDef) (hN : (noiseAt fs).PosDef) {y : Fin (pointsOf fs).length → ℝ}
    (hy : l.flatMap (fun e => e.2.filterMap id) = List.ofFn y) :
    Weights G ops m1 w ((precision L (designOf φ fs) (noiseAt fs))⁻¹ *ᵥ (L⁻¹ *ᵥ μ + (designOf φ fs)ᵀ *ᵥ ((noiseAt fs)⁻¹ *ᵥ (y - offsetOf c fs))))
      (precision L (designOf φ fs) (noiseAt fs))⁻¹ := by
  have hf := hA.fits hl
  obtain ⟨hu, hp, hF⟩ := hA.update h ht hl hc
  obtain ⟨bq, o, hbq, g, -, hat⟩ := hc.gives ht hl
  have ha : ∀ f ∈ fs, Attached (runOps ops {}) m f.p := by
    clear hu hp hF hy hN hfs hf hc hl y
    induction hA with
    | nil => simp
    | @cons f e fs l h' _ ih =>
      intro f' hf'
      rcases List.mem_cons.1 hf' with rfl | hf'
      · rw [h'.1]
        exact g.attached_prior (hat e (by simp))
      · exact ih (fun e he => hat e (by simp [he])) f' hf'
  have ha1 : ∀ i, Attached (runOps ops {}) m1 (w i) := fun i => g.attached (attached_pre (hb i) hbq)
  have hpt : ∀ i (hi : i < (pointsOf fs).length), LinearIn ops w (φ (pointsOf fs)[i].1) (c (pointsOf fs)[i].1) (pointsOf fs)[i].1 ∧
      Attached (runOps ops {}) m (pointsOf fs)[i].1 ∧ G (pointsOf fs)[i].1 (pointsOf fs)[i].2 := fun i hi => by
    obtain ⟨l, hl, hp⟩ := List.mem_flatten.1 (List.getElem_mem hi)
    obtain ⟨f, hf', rfl⟩ := List.mem_map.1 hl
    obtain ⟨e1, e2⟩ := (hf f hf').point hp
    rw [e1]
    exact ⟨hfs f hf', ha f hf', e2⟩
  rw [show (l.map available).flatMap (·.2) = List.ofFn y by rw [← hy, List.flatMap_map]; rfl] at hu
  obtain ⟨-, k2, k3⟩ := hu.indexed hp (by rw [List.length_ofFn, valuesOf_length]) (valuesOf_length _ _)
    (K := designOf φ fs * L * (designOf φ fs)ᵀ + noiseAt fs) fun i j => by
      obtain ⟨p1, p2, p3⟩ := hpt i i.2
      obtain ⟨q1, q2, q3⟩ := hpt j j.2
      rw [valuesOf_getD _ i.2, valuesOf_getD _ j.2, p1.C h hw p2 p3 q1 q2 q3, Matrix.add_apply]
      congr 1
      simp only [Matrix.mul_apply, designOf, Matrix.transpose_apply, Finset.sum_mul, Fin.getElem_fin]
      rw [Finset.sum_comm]
  have hX : ∀ j y, G (w j) y → (fun i : Fin (pointsOf fs).length => ((reading ops).S m).C ((valuesOf ((reading ops).F m) fs).getD i 0) (pointOf ((reading ops).F m (w j)) y)) =
      fun i => (designOf φ fs * L) i j := fun j y hy => by
    funext i
    obtain ⟨p1, p2, p3⟩ := hpt i i.2
    rw [valuesOf_getD _ i.2, p1.cross h hw p2 p3 j hy]
    rfl
  have hLs : Lᵀ = L := hL.isHermitian
  refine ⟨hw.different, ha1, fun i y' hy' => ?_, fun i j y' z' hy' hz' A hA' => ?_⟩
  · obtain ⟨v, hv, -⟩ := h.mean (ha1 i) (.one hy')
    rw [(h.calls (ha1 i) (.one hy') (h.point (ha1 i) hy')).1 v hv] at hv
    convert hv using 1
    rw [List.map_singleton, hF _ (hb i), k3, hw.E h i hy', hX i y' hy', ← precision_mean hL hN]
    congr 1
    rw [Pi.add_apply]
    congr 1
    have e1 : (fun i : Fin (pointsOf fs).length => (List.ofFn y).getD i 0 - ((reading ops).S m).E ((valuesOf ((reading ops).F m) fs).getD i 0)) =
        y - offsetOf c fs - designOf φ fs *ᵥ μ := by
      funext i
      obtain ⟨p1, p2, p3⟩ := hpt i i.2
      rw [valuesOf_getD _ i.2, p1.E h hw p2 p3, getD_lt (by simp)]
      simp only [List.getElem_ofFn, Pi.sub_apply, offsetOf, designOf, mulVec, dotProduct, Fin.getElem_fin]
      ring
    rw [e1]
    have e2 : L * (designOf φ fs)ᵀ = (designOf φ fs * L)ᵀ := by rw [transpose_mul, hLs]
    rw [e2]
    rfl
  · have := (h.kernel_eq (ha1 i) (ha1 j) (.one hy') (.one hz') hA' (h.point (ha1 i) hy') (h.point (ha1 j) hz')).e 0 (by simp [covMat]) 0 (by simp [covMat])
    rw [this]
    simp only [covMat, List.getD_cons_zero]
    rw [hF _ (hb i), hF _ (hb j), k2, hw.C h i j hy' hz', hX i y' hy', hX j z' hz', ← precision_cov hL hN, Matrix.sub_apply]
    congr 1
    have e2 : L * (designOf φ fs)ᵀ = (designOf φ fs * L)ᵀ := by rw [transpose_mul, hLs]
    rw [e2, Matrix.mul_assoc (designOf φ fs * L)ᵀ, Matrix.mul_apply]
    rfl

/-- **C68.** In all programs: different processes `GP(s)` and `GP(μ, s)`, for numbers `μ` and `s`, are weights that have these means and variances and are uncorrelated. -/
theorem C68_new {a : Fin k → MeanArg} {s : Fin k → ℝ} {before : Fin k → List Op} {om : Fin k → Option MId} {on : Fin k → Option String} (hi : Function.Injective w)
    (ha : ∀ i, a i = .num (μ i) ∨ (a i = .mean .zero ∧ μ i = 0)) (hm : ∀ i, Runs ops (before i) (construct (a i) (.num (s i)) (om i) (on i)) (w i))
    (hat : ∀ i, Attached (runOps (before i ++ [construct (a i) (.num (s i)) (om i) (on i)]) {}) m (w i)) : Weights G ops m w μ (diagonal s) := by
  have hpre : ∀ i, before i ++ [construct (a i) (.num (s i)) (om i) (on i)] <+: ops := fun i => by
    obtain ⟨t, ht⟩ := (hm i).split
    exact ⟨t, by rw [ht]; simp⟩
  have hz : ∀ i j, i ≠ j → (before i).length ≤ (before j).length → w i ∈ members (runOps (before j) {}) m := fun i j hij hl => by
    rcases hl.lt_or_eq with hl | hl
    · exact mem_members.2 (attached_pre (hat i) (List.prefix_of_prefix_length_le (hpre i) ((List.prefix_append _ _).trans (hpre j)) (by simpa using hl)))
    · have e : before i = before j :=
        (List.prefix_of_prefix_length_le ((List.prefix_append _ _).trans (hpre i)) ((List.prefix_append _ _).trans (hpre j)) hl.le).eq_of_length hl
      exact (hij (hi (by rw [(hm i).id, (hm j).id, e]))).elim
  refine ⟨hi, fun i => attached_pre (hat i) (hpre i), fun i y _ => ?_, fun i j y z _ _ A hA => ?_⟩
  · rcases ha i with h | ⟨h, h0⟩
    · exact (C52_mean (hm i) (hat i) [y]).1 _ h
    · have := ((hm i).gp_at (hat i)).1
      rw [h] at this
      exact ⟨_, 1, this, by rw [h0]; rfl⟩
  · by_cases hij : i = j
    · subst hij
      obtain ⟨B, hB, -, -, e⟩ := (C52_kernel (hm i) (hat i) [y] [z]).1 _ rfl
      rw [hA.unique hB, diagonal_apply_eq, e 0 (by simp) 0 (by simp)]
    · have h0 : kernelAt (runOps ops {}) m (w i) (w j) = some .zero := by
        rcases le_total (before i).length (before j).length with hl | hl
        · exact (C09_table (hm j) (hat j) (hz i j hij hl)).2
        · exact (C09_table (hm i) (hat i) (hz j i (Ne.symm hij) hl)).1
      have hB : KernelCall (runOps ops {}) m (w i) (w j) (.num [y]) (.num [z]) ⟨1, 1, fun _ _ => 0⟩ := ⟨_, 1, h0, rfl⟩
      rw [hA.unique hB, diagonal_apply_ne _ hij]

/-- **C68.** In regular programs, in all notations and with missing data: the log-density of noisy linear combinations of weights is what it is in Bayesian linear regression. -/
theorem C68_evidence {φ : PId → Pt → Fin k → ℝ} {c : PId → Pt → ℝ} {l : List (Fdd × Vals)} {r : ℝ} (h : Regular G ops) (ht : Tells (Dead G) D ops) (hl : ∀ e ∈ l, FitsV G e)
    (hA : AtAvailable fs l) (hr : Logpdf ops b m l r) (hw : Weights G ops m w μ L) (ha : ∀ f ∈ fs, Attached (runOps ops {}) m f.p)
    (hfs : ∀ f ∈ fs, LinearIn ops w (φ f.p) (c f.p) f.p) (hL : L.PosDef) (hN : (noiseAt fs).PosDef) {y : Fin (pointsOf fs).length → ℝ}
    (hy : l.flatMap (fun e => e.2.filterMap id) = List.ofFn y) :
    r = -(Real.log (noiseAt fs).det + Real.log L.det + Real.log (precision L (designOf φ fs) (noiseAt fs)).det + (pointsOf fs).length * Real.log (2 * Real.pi) +
      penalised L (designOf φ fs) (noiseAt fs) μ (y - offsetOf c fs)
        ((precision L (designOf φ fs) (noiseAt fs))⁻¹ *ᵥ (L⁻¹ *ᵥ μ + (designOf φ fs)ᵀ *ᵥ ((noiseAt fs)⁻¹ *ᵥ (y - offsetOf c fs))))) / 2 := by
  have hf := hA.fits hl
  have hpt : ∀ i (hi : i < (pointsOf fs).length), LinearIn ops w (φ (pointsOf fs)[i].1) (c (pointsOf fs)[i].1) (pointsOf fs)[i].1 ∧
      Attached (runOps ops {}) m (pointsOf fs)[i].1 ∧ G (pointsOf fs)[i].1 (pointsOf fs)[i].2 := fun i hi => by
    obtain ⟨l, hl, hp⟩ := List.mem_flatten.1 (List.getElem_mem hi)
    obtain ⟨f, hf', rfl⟩ := List.mem_map.1 hl
    obtain ⟨e1, e2⟩ := (hf f hf').point hp
    rw [e1]
    exact ⟨hfs f hf', ha f hf', e2⟩
  have hj : jointOf ((reading ops).S m) ((reading ops).F m) fs = ⟨offsetOf c fs + designOf φ fs *ᵥ μ, designOf φ fs * L * (designOf φ fs)ᵀ + noiseAt fs⟩ := by
    unfold jointOf
    congr 1
    · funext i
      obtain ⟨p1, p2, p3⟩ := hpt i i.2
      rw [valuesOf_getD _ i.2, p1.E h hw p2 p3]
      rfl
    · funext i j
      obtain ⟨p1, p2, p3⟩ := hpt i i.2
      obtain ⟨q1, q2, q3⟩ := hpt j j.2
      rw [valuesOf_getD _ i.2, valuesOf_getD _ j.2, p1.C h hw p2 p3 q1 q2 q3, Matrix.add_apply]
      congr 1
      simp only [Matrix.mul_apply, designOf, Matrix.transpose_apply, Finset.sum_mul, Fin.getElem_fin]
      rw [Finset.sum_comm]
  rw [hr.joint h ht hl hA ha hy, hj]
  have hP := posDef_precision (D := designOf φ fs) hL hN
  unfold Normal.logpdfFull
  rw [precision_det hL hN, Real.log_mul (mul_pos hN.det_pos hL.det_pos).ne' hP.det_pos.ne', Real.log_mul hN.det_pos.ne' hL.det_pos.ne',
    ← precision_quad hL hN, sub_sub]

/-- **C68.** In regular programs: what calls of the posterior means of the weights return is the only solution of penalised least squares. -/
theorem C68_ridge {φ : PId → Pt → Fin k → ℝ} {c : PId → Pt → ℝ} {l : List (Fdd × Vals)} (h : Regular G ops) (ht : Tells (Dead G) D ops) (hl : ∀ e ∈ l, FitsV G e)
    (hA : AtAvailable fs l) (hc : Conditioned ops b m l m1) (hw : Weights G ops m w μ L) (hb : ∀ i, Attached (runOps b {}) m (w i))
    (hfs : ∀ f ∈ fs, LinearIn ops w (φ f.p) (c f.p) f.p) (hL : L.PosDef) (hN : (noiseAt fs).PosDef) {y : Fin (pointsOf fs).length → ℝ}
    (hy : l.flatMap (fun e => e.2.filterMap id) = List.ofFn y) {x : Fin k → Pt} (hx : ∀ i, G (w i) (x i)) {β : Fin k → ℝ} :
    (∀ i, MeanCall (runOps ops {}) m1 (w i) (.num [x i]) [β i]) ↔ ∀ γ : Fin k → ℝ, γ ≠ β →
      penalised L (designOf φ fs) (noiseAt fs) μ (y - offsetOf c fs) β < penalised L (designOf φ fs) (noiseAt fs) μ (y - offsetOf c fs) γ := by
  have hp := C68_condition h ht hl hA hc hw hb hfs hL hN hy
  have hP := posDef_precision (D := designOf φ fs) hL hN
  have key := penalised_eq (D := designOf φ fs) hL hN μ (y - offsetOf c fs)
  generalize (precision L (designOf φ fs) (noiseAt fs))⁻¹ *ᵥ (L⁻¹ *ᵥ μ + (designOf φ fs)ᵀ *ᵥ ((noiseAt fs)⁻¹ *ᵥ (y - offsetOf c fs))) = e at hp key
  have pos : ∀ γ, γ ≠ e → penalised L (designOf φ fs) (noiseAt fs) μ (y - offsetOf c fs) e < penalised L (designOf φ fs) (noiseAt fs) μ (y - offsetOf c fs) γ := fun γ hγ => by
    rw [key γ]
    have := hP.dotProduct_mulVec_pos (sub_ne_zero.2 hγ)
    rw [star_trivial] at this
    linarith
  constructor
  · intro hβ
    obtain rfl : β = e := funext fun i => by simpa using (hβ i).unique (hp.mean i (x i) (hx i))
    exact pos
  · intro hβ
    have : β = e := by
      by_contra hne
      exact lt_asymm (hβ e (Ne.symm hne)) (pos β hne)
    rw [this]
    exact fun i => hp.mean i (x i) (hx i)

end

/-! ## An example -/

/-- Noise of variance `1/5`. -/
noncomputable def fifth (n : ℕ) : Mat := ⟨n, n, fun i j => if i = j then 1 / 5 else 0⟩

theorem fifth_posDef (n k : ℕ) : ((fifth n).sq k).PosDef := by
  have : (fifth n).sq k = (1 / 5 : ℝ) • 1 := by
    ext i j
    show (if (i : ℕ) = j then (1 / 5 : ℝ) else 0) = _
    rw [Matrix.smul_apply, Matrix.one_apply]
    simp [Fin.ext_iff]
  rw [this]
  exact PosDef.one.smul (by norm_num)

/-- `slope * (lambda x: x) + intercept` (`readme_example6_blr.py`). -/
noncomputable def lineExpr : PyExpr := .add (.mul (.var 0) (.fn fun x => x.sum)) (.var 1)

/-- Bayesian linear regression (`readme_example6_blr.py`): `slope = GP(1)`, `intercept = GP(5)`, `f = slope * (lambda x: x) + intercept`, `prior | (f(x, 0.2), y)`, then `prior(f)`, which `prior.logpdf(f(x, 0.2), y)` makes. -/
noncomputable def regress (xs : List Pt) (ys : List ℝ) : List Op :=
  [constructK (.num 1) none none, constructK (.num 5) (some 0) none, .fmul 0 (.user fun x => x.sum), .add 2 1 [0], .condition 0 (.exact 3 (.num xs) (fifth xs.length) ys), .call 0 3]

theorem regress_runs (xs : List Pt) (ys : List ℝ) : RunsExpr (regress xs ys) ((regress xs ys).take 2) (fun _ => [0]) lineExpr 3 :=
  ⟨(regress xs ys).take 4, _, rfl, rfl, List.ne_nil_of_mem (((C32_consistent _).1 0 3).1 (attached_iff.2 rfl))⟩

theorem regress_linear (xs : List Pt) (ys : List ℝ) : LinearIn (regress xs ys) ![0, 1] (fun x => ![x.sum, 1]) (fun _ => 0) 3 :=
  ⟨_, _, lineExpr, regress_runs xs ys, by simp [lineExpr, PyExpr.Linear, PyExpr.random], by simp [lineExpr, PyExpr.vars, Fin.exists_fin_two], fun v x => by
    simp [lineExpr, PyExpr.value, PyExpr.random, PyExpr.fixed, Fin.sum_univ_two]⟩

theorem regress_weights {G : Dom} (xs : List Pt) (ys : List ℝ) : Weights G (regress xs ys) 0 ![0, 1] 0 (diagonal ![1, 5]) :=
  C68_new (a := fun _ => .mean .zero) (before := ![[], (regress xs ys).take 1]) (om := ![none, some 0]) (on := fun _ => none)
    (by intro i j; fin_cases i <;> fin_cases j <;> simp) (fun i => .inr ⟨rfl, rfl⟩)
    (fun i => by
      fin_cases i
      · exact ⟨⟨_, rfl⟩, rfl, 0, attached_iff.2 rfl⟩
      · exact ⟨⟨_, rfl⟩, rfl, 0, attached_iff.2 rfl⟩)
    (fun i => by
      fin_cases i
      · exact attached_iff.2 rfl
      · exact attached_iff.2 rfl)

theorem regress_solid (xs : List Pt) : Solid (fun _ _ => True) ((regress xs []).take 4) := by
  have h1 : Solid (fun _ _ => True) ((regress xs []).take 1) := C46_extend .nil (o := constructK (.num 1) none none) ⟨trivial, KernelArg.num_plain 1, KernelArg.num_psd (by norm_num)⟩
    (fun _ _ h => by cases h) (fun m e he _ => by
      rw [constructK, construct] at he
      simp only [Op.written, List.mem_singleton] at he
      subst he
      exact ⟨trivial, KernelArg.num_plain 1⟩) fun _ _ _ h => by cases h
  have h2 : Solid (fun _ _ => True) ((regress xs []).take 2) := C46_extend h1 (o := constructK (.num 5) (some 0) none) ⟨trivial, KernelArg.num_plain 5, KernelArg.num_psd (by norm_num)⟩
    (fun _ _ h => by cases h) (fun m e he _ => by
      rw [constructK, construct] at he
      simp only [Op.written, List.mem_singleton] at he
      subst he
      exact ⟨trivial, KernelArg.num_plain 5⟩) fun _ _ _ h => by cases h
  have h3 : Solid (fun _ _ => True) ((regress xs []).take 3) := C46_extend h2 (o := .fmul 0 (.user fun x => x.sum)) trivial (fun _ _ h => by cases h) (fun m e he _ => by
    simp only [Op.written, List.mem_singleton] at he
    subst he
    exact ⟨fun x _ => trivial, trivial⟩) fun _ _ _ h => by cases h
  exact C46_extend h3 (o := .add 2 1 [0]) trivial (fun _ _ h => by cases h) (fun m e he _ => by
    simp only [Op.written, List.mem_singleton] at he
    subst he
    exact ⟨fun x _ => trivial, fun x _ => trivial⟩) fun _ _ _ h => by cases h

theorem regress_regular {xs : List Pt} {ys : List ℝ} (hl : ys.length = xs.length) : Regular (fun _ _ => True) (regress xs ys) :=
  (C46_extend (C46_condition (m := 0) (p := 3) (regress_solid xs) (attached_iff.2 rfl) (by simp [Rows]) rfl rfl hl (fifth_posDef _ _)) (o := .call 0 3) trivial
    (fun _ _ h => by cases h) (fun m e he _ => by
      simp only [Op.written, List.mem_singleton] at he
      subst he
      exact fun x _ => trivial) fun _ _ _ h => by cases h).regular

theorem slim_num {C : PId → Prop} (c : ℝ) : KExpr.Slim C (KernelArg.num c).resolve := by
  simp only [KernelArg.resolve]
  split
  · trivial
  · exact ⟨trivial, trivial⟩

theorem regress_tells (xs : List Pt) (ys : List ℝ) : Tells (Dead (fun _ _ => True)) (fun _ => 2) (regress xs ys) := by
  have hd : Dead (fun _ _ => True) = fun _ => False := by
    funext p
    simp [Dead, Live]
  rw [hd]
  refine splits (ops := regress xs ys) (P := fun before o => ∀ m, ∀ e ∈ o.written (runOps before {}).gps.length m,
      Sorted (fun _ => False) e ∧ Counts (fun _ => 2) e) ⟨?_, ?_, ?_, ?_, ?_, ?_, trivial⟩
  all_goals
    intro m e he
    first
      | exact (List.not_mem_nil he).elim
      | have he := List.mem_singleton.1 he
        subst he
        first
          | exact ⟨⟨fun _ => ⟨trivial, slim_num _⟩, fun h => h.elim⟩, trivial⟩
          | exact ⟨⟨fun _ => ⟨fun h => h, trivial⟩, fun h => h.elim⟩, trivial⟩
          | exact ⟨⟨fun _ => not_false, fun h => h.elim⟩, rfl⟩
          | exact ⟨⟨fun _ => ⟨fun h => h, fun h => h⟩, fun h => h.elim⟩, trivial⟩

theorem regress_conditioned (a b c r s t : ℝ) : Conditioned (regress [[a], [b], [c]] [r, s, t]) ((regress [] []).take 4) 0 [(⟨3, .num [[a], [b], [c]], fifth 3⟩, [some r, some s, some t])] 1 :=
  .direct (n := 3) (ord := []) (.plain ⟨3, .num [[a], [b], [c]], fifth 3⟩ [some r, some s, some t]) (.inl rfl) rfl ⟨[.call 0 3], rfl⟩ (by decide : 0 < 1) rfl
    (fun e he => by cases List.mem_singleton.1 he; exact attached_iff.2 rfl)

theorem regress_args (a b c r s t : ℝ) : logpdfArgs (runOps ((regress [[a], [b], [c]] [r, s, t]).take 5) {}) [] 0 [.fdd ⟨3, .num [[a], [b], [c]], fifth 3⟩, .vals [some r, some s, some t]] =
    some ([.call 0 3], ⟨4, .num [[a], [b], [c]], fifth 3⟩, [some r, some s, some t]) := by
  have e : regress [[a], [b], [c]] [r, s, t] = [.gp .zero (.scale 1 oneKernel) none none, .gp .zero (.scale 5 oneKernel) (some 0) none, .fmul 0 (.user fun x => x.sum), .add 2 1 [0],
      .condition 0 (.exact 3 (.num [[a], [b], [c]]) (fifth 3) [r, s, t]), .call 0 3] := by
    simp [regress, constructK, construct, KernelArg.resolve, MeanArg.resolve]
  rw [e]
  rfl

theorem regress_noise (a b c : ℝ) : noiseAt [⟨3, .num [[a], [b], [c]], fifth 3⟩] = (1 / 5 : ℝ) • 1 := by
  have key : ∀ i j : ℕ, i < 3 → j < 3 → (noiseOf [⟨3, .num [[a], [b], [c]], fifth 3⟩]).e i j = if i = j then 1 / 5 else 0 := fun i j hi hj => by
    simp [noiseOf, Mat.blockDiag, Mat.dsum, fifth, hi, hj]
  ext i j
  rw [Matrix.smul_apply, Matrix.one_apply]
  refine (key i j i.2 j.2).trans ?_
  by_cases h : i = j
  · rw [if_pos h, if_pos (by rw [h]), smul_eq_mul, mul_one]
  · rw [if_neg h, if_neg fun h' => h (Fin.ext h'), smul_eq_mul, mul_zero]

theorem regress_penalised (a b c r s t : ℝ) (γ : Fin 2 → ℝ) :
    penalised (n := 3) (diagonal ![1, 5]) (designOf (fun _ x => ![x.sum, 1]) [⟨3, .num [[a], [b], [c]], fifth 3⟩]) (noiseAt [⟨3, .num [[a], [b], [c]], fifth 3⟩]) 0
      (HSub.hSub (α := Fin 3 → ℝ) (β := Fin 3 → ℝ) ![r, s, t] (offsetOf (fun _ _ => 0) [⟨3, .num [[a], [b], [c]], fifth 3⟩])) γ =
    5 * ((r - γ 0 * a - γ 1) ^ 2 + (s - γ 0 * b - γ 1) ^ 2 + (t - γ 0 * c - γ 1) ^ 2) + γ 0 ^ 2 + γ 1 ^ 2 / 5 := by
  have i1 : ((1 / 5 : ℝ) • (1 : Matrix (Fin 3) (Fin 3) ℝ))⁻¹ = (5 : ℝ) • 1 := inv_eq_right_inv (by rw [smul_mul_smul_comm, mul_one]; norm_num)
  have i2 : (diagonal ![1, 5] : Matrix (Fin 2) (Fin 2) ℝ)⁻¹ = diagonal ![1, 1 / 5] := inv_eq_right_inv (by
    rw [diagonal_mul_diagonal, ← diagonal_one]
    congr 1
    funext i
    fin_cases i <;> norm_num)
  have q : ∀ v : Fin 3 → ℝ, v ⬝ᵥ (((1 / 5 : ℝ) • (1 : Matrix (Fin 3) (Fin 3) ℝ))⁻¹ *ᵥ v) = 5 * (v 0 ^ 2 + v 1 ^ 2 + v 2 ^ 2) := fun v => by
    rw [i1, smul_mulVec, one_mulVec]
    simp [dotProduct, Fin.sum_univ_three]
    ring
  have d : ∀ x z, z - 0 - (![List.sum [x], 1] : Fin 2 → ℝ) ⬝ᵥ γ = z - γ 0 * x - γ 1 := fun x z => by
    simp [dotProduct, Fin.sum_univ_two]
    ring
  unfold penalised
  rw [i2]
  have hn : noiseAt [⟨3, .num [[a], [b], [c]], fifth 3⟩] = ((1 / 5 : ℝ) • 1 : Matrix (Fin 3) (Fin 3) ℝ) := regress_noise a b c
  rw [hn]
  refine (congrArg₂ (· + ·) (q _) rfl).trans ?_
  have e : (γ - 0) ⬝ᵥ (diagonal ![1, 1 / 5] *ᵥ (γ - 0)) = γ 0 ^ 2 + γ 1 ^ 2 / 5 := by
    simp [dotProduct, Fin.sum_univ_two, mulVec_diagonal]
    ring
  rw [e, ← d a r, ← d b s, ← d c t, ← add_assoc]
  rfl

/-- C68 for the example of the README: for all data, calls of the posterior means of the slope and the intercept return the slope and intercept that minimise
`5 Σ (yᵢ - slope xᵢ - intercept)² + slope² + intercept² / 5`, and `f` has the mean `slope x + intercept`. -/
example (a b c r s t : ℝ) : ∃ β : Fin 2 → ℝ, MeanCall (runOps (regress [[a], [b], [c]] [r, s, t]) {}) 1 0 (.num [[0]]) [β 0] ∧
    MeanCall (runOps (regress [[a], [b], [c]] [r, s, t]) {}) 1 1 (.num [[0]]) [β 1] ∧
    (∀ x, MeanCall (runOps (regress [[a], [b], [c]] [r, s, t]) {}) 1 3 (.num [[x]]) [β 0 * x + β 1]) ∧
    ∀ γ : Fin 2 → ℝ, γ ≠ β → 5 * ((r - β 0 * a - β 1) ^ 2 + (s - β 0 * b - β 1) ^ 2 + (t - β 0 * c - β 1) ^ 2) + β 0 ^ 2 + β 1 ^ 2 / 5 <
      5 * ((r - γ 0 * a - γ 1) ^ 2 + (s - γ 0 * b - γ 1) ^ 2 + (t - γ 0 * c - γ 1) ^ 2) + γ 0 ^ 2 + γ 1 ^ 2 / 5 := by
  set f : Fdd := ⟨3, .num [[a], [b], [c]], fifth 3⟩ with hf
  have hr : Regular (fun _ _ => True) (regress [[a], [b], [c]] [r, s, t]) := regress_regular rfl
  have hl : ∀ e ∈ [(f, ([some r, some s, some t] : Vals))], FitsV (fun _ _ => True) e := fun e he => by
    cases List.mem_singleton.1 he
    exact ⟨_, rfl, by simp [Rows], rfl, rfl, rfl⟩
  have hA : AtAvailable [f] [(f, [some r, some s, some t])] := .full (G := fun _ _ => True) fun e he => ⟨hl e he, by cases List.mem_singleton.1 he; rfl⟩
  have hw : Weights (fun _ _ => True) (regress [[a], [b], [c]] [r, s, t]) 0 ![0, 1] 0 (diagonal ![1, 5]) := regress_weights _ _
  have hb : ∀ i, Attached (runOps ((regress [] []).take 4) {}) 0 ((![0, 1] : Fin 2 → PId) i) := fun i => by fin_cases i <;> exact attached_iff.2 rfl
  have hfs : ∀ g ∈ [f], LinearIn (regress [[a], [b], [c]] [r, s, t]) ![0, 1] (fun x => ![x.sum, 1]) (fun _ => 0) g.p := fun g hg => by
    cases List.mem_singleton.1 hg
    exact regress_linear _ _
  have hL : (diagonal ![1, 5] : Matrix (Fin 2) (Fin 2) ℝ).PosDef := PosDef.diagonal fun i => by fin_cases i <;> norm_num
  have hN : (noiseAt [f]).PosDef := by
    rw [regress_noise]
    exact PosDef.one.smul (by norm_num)
  have hc := regress_conditioned a b c r s t
  have hp := C68_condition (φ := fun _ x => ![x.sum, 1]) (c := fun _ _ => 0) (y := ![r, s, t]) hr (regress_tells _ _) hl hA hc hw hb hfs hL hN (show [r, s, t] = List.ofFn (n := 3) ![r, s, t] by simp [List.ofFn_succ])
  have hR := fun β => C68_ridge (φ := fun _ x => ![x.sum, 1]) (c := fun _ _ => 0) (y := ![r, s, t]) (β := β) hr (regress_tells _ _) hl hA hc hw hb hfs hL hN (show [r, s, t] = List.ofFn (n := 3) ![r, s, t] by simp [List.ofFn_succ]) (x := fun _ => [0]) fun _ => trivial
  generalize (precision (diagonal ![1, 5]) (designOf (fun _ x => ![x.sum, 1]) [f]) (noiseAt [f]))⁻¹ *ᵥ _ = β at hp
  refine ⟨β, hp.mean 0 [0] trivial, hp.mean 1 [0] trivial, fun x => ?_, fun γ hγ => ?_⟩
  · have := C68_mean hr hp (regress_linear _ _) (attached_iff.2 rfl) (xs := [[x]]) (by simp [Rows])
    simpa [Fin.sum_univ_two, mul_comm] using this
  · have := (hR β).1 (fun i => hp.mean i [0] trivial) γ hγ
    exact (regress_penalised a b c r s t β).symm.trans_lt (this.trans_eq (regress_penalised a b c r s t γ))

/-- C68 for the example of the README: for all data, the log-density of the data is computed from the penalised residuals of the slope and intercept that calls of the posterior means return. -/
example (a b c r s t : ℝ) : ∃ q, ∃ β : Fin 2 → ℝ, ∃ d : ℝ, 0 < d ∧ Logpdf (regress [[a], [b], [c]] [r, s, t]) ((regress [[a], [b], [c]] [r, s, t]).take 5) 0 [(⟨3, .num [[a], [b], [c]], fifth 3⟩, [some r, some s, some t])] q ∧
    MeanCall (runOps (regress [[a], [b], [c]] [r, s, t]) {}) 1 0 (.num [[0]]) [β 0] ∧ MeanCall (runOps (regress [[a], [b], [c]] [r, s, t]) {}) 1 1 (.num [[0]]) [β 1] ∧
    q = -(Real.log ((1 / 5) ^ 3) + Real.log 5 + Real.log d + 3 * Real.log (2 * Real.pi) +
      (5 * ((r - β 0 * a - β 1) ^ 2 + (s - β 0 * b - β 1) ^ 2 + (t - β 0 * c - β 1) ^ 2) + β 0 ^ 2 + β 1 ^ 2 / 5)) / 2 := by
  set f : Fdd := ⟨3, .num [[a], [b], [c]], fifth 3⟩ with hf
  have hr : Regular (fun _ _ => True) (regress [[a], [b], [c]] [r, s, t]) := regress_regular rfl
  have hl : ∀ e ∈ [(f, ([some r, some s, some t] : Vals))], FitsV (fun _ _ => True) e := fun e he => by
    cases List.mem_singleton.1 he
    exact ⟨_, rfl, by simp [Rows], rfl, rfl, rfl⟩
  have hA : AtAvailable [f] [(f, [some r, some s, some t])] := .full (G := fun _ _ => True) fun e he => ⟨hl e he, by cases List.mem_singleton.1 he; rfl⟩
  have hw : Weights (fun _ _ => True) (regress [[a], [b], [c]] [r, s, t]) 0 ![0, 1] 0 (diagonal ![1, 5]) := regress_weights _ _
  have hb : ∀ i, Attached (runOps ((regress [] []).take 4) {}) 0 ((![0, 1] : Fin 2 → PId) i) := fun i => by fin_cases i <;> exact attached_iff.2 rfl
  have ha : ∀ g ∈ [f], Attached (runOps (regress [[a], [b], [c]] [r, s, t]) {}) 0 g.p := fun g hg => by
    cases List.mem_singleton.1 hg
    exact attached_iff.2 rfl
  have hfs : ∀ g ∈ [f], LinearIn (regress [[a], [b], [c]] [r, s, t]) ![0, 1] (fun x => ![x.sum, 1]) (fun _ => 0) g.p := fun g hg => by
    cases List.mem_singleton.1 hg
    exact regress_linear _ _
  have hL : (diagonal ![1, 5] : Matrix (Fin 2) (Fin 2) ℝ).PosDef := PosDef.diagonal fun i => by fin_cases i <;> norm_num
  have hN : (noiseAt [f]).PosDef := by
    rw [regress_noise]
    exact PosDef.one.smul (by norm_num)
  obtain ⟨q, hq⟩ : ∃ q, Logpdf (regress [[a], [b], [c]] [r, s, t]) ((regress [[a], [b], [c]] [r, s, t]).take 5) 0 [(f, [some r, some s, some t])] q :=
    logpdf_plain (os := [.call 0 3]) (ord := []) (m := 0) hr (hl _ (by simp)) (fifth_posDef _ _) (regress_args a b c r s t) ⟨[], rfl⟩
  have hy : [r, s, t] = List.ofFn (n := 3) ![r, s, t] := by simp [List.ofFn_succ]
  have hp := C68_condition (φ := fun _ x => ![x.sum, 1]) (c := fun _ _ => 0) (y := ![r, s, t]) hr (regress_tells _ _) hl hA (regress_conditioned a b c r s t) hw hb hfs hL hN hy
  have he := C68_evidence (φ := fun _ x => ![x.sum, 1]) (c := fun _ _ => 0) (y := ![r, s, t]) hr (regress_tells _ _) hl hA hq hw ha hfs hL hN hy
  have hd := (posDef_precision (D := designOf (fun _ x => ![x.sum, 1]) [f]) hL hN).det_pos
  generalize (precision (diagonal ![1, 5]) (designOf (fun _ x => ![x.sum, 1]) [f]) (noiseAt [f]))⁻¹ *ᵥ _ = β at hp he
  refine ⟨q, β, _, hd, hq, hp.mean 0 [0] trivial, hp.mean 1 [0] trivial, ?_⟩
  have e1 : (noiseAt [f]).det = (1 / 5) ^ 3 := by
    rw [regress_noise, det_smul, det_one, mul_one, Fintype.card_fin]
    rfl
  have e2 : (diagonal ![1, 5] : Matrix (Fin 2) (Fin 2) ℝ).det = 5 := by simp [det_diagonal, Fin.prod_univ_two]
  rw [e1, e2] at he
  refine he.trans ?_
  congr 3
  exact regress_penalised a b c r s t β

end Stheno
