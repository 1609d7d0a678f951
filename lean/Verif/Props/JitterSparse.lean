import Verif.JitterSparse
import Verif.Props.Jitter
import Verif.Props.Sparse
import Verif.Props.Blur

/-!
# C62: inducing points with jitter

Jitter is added to three matrices when there are inducing points. The ELBO of VFE is still at most the log-density of the data, in the model with jitter
(`C62_bound`); everything is computed, also where it is not without jitter (`C62_returns`); posterior covariances are positive semi-definite and at
most those of the prior (`C62_variance`); and results go to the results without jitter as the jitter goes to zero (`C62_elbo_limit`, `C62_limit`).
-/

namespace Stheno

open Matrix Topology

section
variable {V : Type} [AddCommGroup V] [Module ℝ V] {S : SO V} {us vs : List V} {ε : ℝ}

theorem noisyGram_jit (N : Mat) : noisyGram S us N + ε • 1 = noisyGram S us (jit ε N) := by
  unfold noisyGram
  rw [jit_sq, add_assoc]

/-- Nothing has negative variance given the inducing variables. -/
theorem knDiag_pos_gram (hS : S.Pos) {N : Mat} (hr : N.r = us.length) (hc : N.c = us.length) (hN : (N.sq us.length).PosSemidef)
    (hp : (noisyGram S us N).PosDef) {μ : Method} {kx noise : Fin vs.length → ℝ} (hk : μ ≠ .dtc → kx = fun j => S.C (vs.get j) (vs.get j))
    (hn : ∀ j, 0 < noise j) (j : Fin vs.length) : 0 < knDiag μ (noisyGram S us N) (crossGram S us vs) kx noise j := by
  rw [knDiag_eq μ _ _ _ hp]
  cases μ with
  | vfe => exact hn j
  | dtc => exact hn j
  | fitc =>
    have := (residual_posSemidef (xs := vs) hS hr hc hN hp).diag_nonneg (i := j)
    rw [hk (by simp)]
    exact add_pos_of_pos_of_nonneg (hn j) this

end

section
variable {G : Dom} {ops : List Op} {ε : ℝ} {m : MId} {pu p q q' : PId} {o : PseudoData} {zs xs ys ys' : List Pt} {g : Ingredients} {ybar : Fin g.k → ℝ}
  {us vs : List RV}

/-- What is computed with jitter, in terms of random variables. -/
theorem ComputedJ.spec (c : ComputedJ ε (runOps ops {}) pu p o m g ybar) (hn : ∀ o ∈ ops, o.Natural) (h : Regular G (renoise (jit ε) ops))
    (hu : Attached (runOps ops {}) m pu) (hp : Attached (runOps ops {}) m p) (cu : Rows (G pu) zs) (cp : Rows (G p) xs)
    (ez : o.z = .num zs) (ex : o.x = .num xs) (hU : (reading (renoise (jit ε) ops)).F m pu (.num zs) = some us)
    (hV : (reading (renoise (jit ε) ops)).F m p (.num xs) = some vs) :
    ∃ kx, (⟨g, ybar⟩ : (g : Ingredients) × (Fin g.k → ℝ)) = ⟨⟨us.length, vs.length, noisyGram ((reading (renoise (jit ε) ops)).S m) us o.noiseZ,
        crossGram ((reading (renoise (jit ε) ops)).S m) us vs, kx, fun j => o.noiseX.mat.e j j⟩,
        fun j => o.y.getD j 0 - ((reading (renoise (jit ε) ops)).S m).E (vs.get j)⟩ ∧
      (o.method ≠ .dtc → kx = fun j => ((reading (renoise (jit ε) ops)).S m).C (vs.get j) (vs.get j)) ∧
      o.noiseZ.r = us.length ∧ o.noiseZ.c = us.length ∧ o.noiseX.mat.r = vs.length ∧ o.noiseX.mat.c = vs.length ∧ o.y.length = vs.length := by
  have hu' := (renoise_attached (φ := jit ε) hn).2 hu
  have hp' := (renoise_attached (φ := jit ε) hn).2 hp
  obtain ⟨A, K, hA, hK, rK, cK, eK⟩ := c.Kz
  obtain ⟨Z, hZ, rZ, cZ, eZ⟩ := c.Kzx
  obtain ⟨n1, n2, n3⟩ := c.noise
  obtain ⟨v, hv, lv, ly, ev⟩ := c.y
  have hkx := c.kx
  rw [ez] at hA hZ
  rw [ex] at hZ hv hkx
  simp only [C54_jitter_kernel hn] at hA hZ
  rw [C54_jitter_mean hn] at hv
  have fA := h.kernel_eq hu' hu' cu cu hA hU hU
  have fZ := h.kernel_eq hu' hp' cu cp hZ hU hV
  have fv := h.mean_eq hp' cp hv hV
  obtain ⟨e1, e2, rfl⟩ := Mat.add_some hK
  have rA : A.r = us.length := fA.r
  have cA : A.c = us.length := fA.c
  obtain ⟨n, k, Kz, Kzx, kx, noise⟩ := g
  have hn' : n = us.length := rK.symm.trans rA
  have hk' : k = vs.length := cZ.symm.trans fZ.c
  subst hn' hk'
  have h1 : Kz = noisyGram ((reading (renoise (jit ε) ops)).S m) us o.noiseZ := by
    rw [← (show _ = Kz from eK)]
    ext i j
    show A.e i j + o.noiseZ.e i j = ((reading (renoise (jit ε) ops)).S m).C (us.get i) (us.get j) + o.noiseZ.e i j
    rw [fA.e i i.2 j j.2]
    show ((reading (renoise (jit ε) ops)).S m).C (us.getD i 0) (us.getD j 0) + _ = _
    rw [getD_get i.2, getD_get j.2]
    rfl
  have h2 : Kzx = crossGram ((reading (renoise (jit ε) ops)).S m) us vs := by
    ext i j
    rw [← (show _ = Kzx i j from eZ i j), fZ.e i i.2 j j.2]
    show ((reading (renoise (jit ε) ops)).S m).C (us.getD i 0) (vs.getD j 0) = _
    rw [getD_get i.2, getD_get j.2]
    rfl
  have h3 : noise = fun j : Fin vs.length => o.noiseX.mat.e j j := funext fun j => (n3 j).symm
  have h4 : ybar = fun j : Fin vs.length => o.y.getD j 0 - ((reading (renoise (jit ε) ops)).S m).E (vs.get j) := by
    funext j
    rw [← (show _ = ybar j from ev j), fv]
    have hb : (j : ℕ) < (vs.map ((reading (renoise (jit ε) ops)).S m).E).length := by simp
    rw [getD_get_real hb, List.getElem_map]
    rfl
  subst h1 h2 h3 h4
  refine ⟨kx, rfl, fun hm => ?_, e1.symm.trans rA, e2.symm.trans cA, n1, n2, ly⟩
  obtain ⟨u, hu1, lu, eu⟩ := hkx hm
  rw [C54_jitter_elwise hn] at hu1
  have fu := h.elwise_eq hp' hp' cp cp rfl hu1 hV hV
  funext j
  rw [← (show _ = kx j from eu j), fu, List.getD_eq_getElem?_getD, List.getElem?_eq_getElem (by simp)]
  simp

/-- **C62, the bound.** For VFE, any inducing points and any jitter: the ELBO is at most the log-density of the data, in the model with jitter. -/
theorem C62_bound (h : Tame G ops) (hx : Exact ops) (hs : Steady ops) (hε : 0 < ε)
    (hu : Attached (runOps ops {}) m pu) (hp : Attached (runOps ops {}) m p) (cu : Rows (G pu) zs) (cp : Rows (G p) xs)
    (ez : o.z = .num zs) (ex : o.x = .num xs) (hm : o.method = .vfe) (hz : (o.noiseZ.sq zs.length).PosSemidef)
    (hd : o.noiseX.mat.IsDiag xs.length) {r : ℝ} (hr : ElboJ ε (runOps ops {}) pu p o m r) {v : List ℝ} {K : Mat}
    (hv : MeanCallJ ε (runOps ops {}) m p (.num xs) v) (hK : KernelCallJ ε (runOps ops {}) m p p (.num xs) (.num xs) K) :
    r ≤ (⟨fun j => v.getD j 0, K.sq xs.length + o.noiseX.mat.sq xs.length⟩ : Normal xs.length).logpdfFull fun j => o.y.getD j 0 := by
  have R := h.jitter hx hs hε
  have hn := h.natural
  have hu' := (renoise_attached (φ := jit ε) hn).2 hu
  have hp' := (renoise_attached (φ := jit ε) hn).2 hp
  obtain ⟨us, hU, lu⟩ := R.value hu' cu
  obtain ⟨vs, hV, lv⟩ := R.value hp' cp
  obtain ⟨g, ybar, c, rfl⟩ := hr
  obtain ⟨kx, e, hk, zr, zc, xr, xc, ly⟩ := c.spec hn R hu hp cu cp ez ex hU hV
  cases e
  rw [C54_jitter_mean hn] at hv
  rw [C54_jitter_kernel hn] at hK
  have fv := R.mean_eq hp' cp hv hV
  have fK := R.kernel_eq hp' hp' cp cp hK hV hV
  have hp1 := c.chol
  have hpos := c.pos
  have h1 := elboOfJ_le (ybar := fun j : Fin vs.length => o.y.getD j 0 - ((reading (renoise (jit ε) ops)).S m).E (vs.get j)) hε.le hpos
  refine h1.trans ?_
  simp only at hp1 hpos
  rw [noisyGram_jit] at hp1 hpos ⊢
  rw [hm] at hpos hk ⊢
  have hn' : ∀ j : Fin vs.length, 0 < o.noiseX.mat.e j j := fun j => by
    have := hpos j
    simpa only [knDiag, add_zero] using this
  have hres := residual_posSemidef (xs := vs) (R.pos m) (noise := jit ε o.noiseZ) zr zc (by
    rw [jit_sq]; exact (lu ▸ hz).add (smul_one_posSemidef hε.le)) hp1
  have := elboOf_le (ybar := fun j => o.y.getD j 0 - ((reading (renoise (jit ε) ops)).S m).E (vs.get j)) (kx := kx) hp1 hn'
    (K := gram ((reading (renoise (jit ε) ops)).S m) vs) (fun j => by rw [hk (by simp)]; rfl) hres
  refine this.trans (le_of_eq ?_)
  subst fv
  have gK : K.sq vs.length = gram ((reading (renoise (jit ε) ops)).S m) vs := by
    ext i j
    show K.e i j = _
    rw [fK.e i i.2 j j.2]
    simp [covMat, gram]
  rw [← lv] at hd ⊢
  rw [gK, hd.sq]
  refine Eq.trans ?_ (logpdfFull_center _ _).symm
  congr 1
  funext j
  simp [List.getD_eq_getElem?_getD]

theorem elboOfJ_congr {n k : ℕ} {μ : Method} {Kz : Matrix (Fin n) (Fin n) ℝ} {Kzx : Matrix (Fin n) (Fin k) ℝ} {kx kx' noise y : Fin k → ℝ}
    (h : μ ≠ .dtc → kx = kx') : elboOfJ ε μ Kz Kzx kx noise y = elboOfJ ε μ Kz Kzx kx' noise y := by
  by_cases hm : μ = .dtc
  · subst hm; rfl
  · rw [h hm]

theorem muShiftJ_congr {n k : ℕ} {μ : Method} {Kz : Matrix (Fin n) (Fin n) ℝ} {Kzx : Matrix (Fin n) (Fin k) ℝ} {kx kx' noise y : Fin k → ℝ}
    (h : μ ≠ .dtc → kx = kx') : muShiftJ ε μ Kz Kzx kx noise y = muShiftJ ε μ Kz Kzx kx' noise y := by
  by_cases hm : μ = .dtc
  · subst hm; rfl
  · rw [h hm]

theorem subspaceAJ_congr {n k : ℕ} {μ : Method} {Kz : Matrix (Fin n) (Fin n) ℝ} {Kzx : Matrix (Fin n) (Fin k) ℝ} {kx kx' noise : Fin k → ℝ}
    (h : μ ≠ .dtc → kx = kx') : subspaceAJ ε μ Kz Kzx kx noise = subspaceAJ ε μ Kz Kzx kx' noise := by
  by_cases hm : μ = .dtc
  · subst hm; rfl
  · rw [h hm]

theorem knDiag_congr {n k : ℕ} {μ : Method} {Kz : Matrix (Fin n) (Fin n) ℝ} {Kzx : Matrix (Fin n) (Fin k) ℝ} {kx kx' noise : Fin k → ℝ}
    (h : μ ≠ .dtc → kx = kx') : knDiag μ Kz Kzx kx noise = knDiag μ Kz Kzx kx' noise := by
  by_cases hm : μ = .dtc
  · subst hm; rfl
  · rw [h hm]

/-- The ELBO with jitter. -/
theorem ElboJ.spec {r : ℝ} (c : ElboJ ε (runOps ops {}) pu p o m r) (hn : ∀ o ∈ ops, o.Natural) (h : Regular G (renoise (jit ε) ops))
    (hu : Attached (runOps ops {}) m pu) (hp : Attached (runOps ops {}) m p) (cu : Rows (G pu) zs) (cp : Rows (G p) xs)
    (ez : o.z = .num zs) (ex : o.x = .num xs) (hU : (reading (renoise (jit ε) ops)).F m pu (.num zs) = some us)
    (hV : (reading (renoise (jit ε) ops)).F m p (.num xs) = some vs) {S : SO RV} (hS : (reading (renoise (jit ε) ops)).S m = S) :
    (noisyGram S us o.noiseZ + ε • 1).PosDef ∧
    (∀ j, 0 < knDiag o.method (noisyGram S us o.noiseZ + ε • 1) (crossGram S us vs) (fun j => S.C (vs.get j) (vs.get j)) (fun j => o.noiseX.mat.e j j) j) ∧
    r = elboOfJ ε o.method (noisyGram S us o.noiseZ) (crossGram S us vs) (fun j => S.C (vs.get j) (vs.get j)) (fun j => o.noiseX.mat.e j j)
      fun j => o.y.getD j 0 - S.E (vs.get j) := by
  subst hS
  obtain ⟨g, ybar, c, rfl⟩ := c
  obtain ⟨kx, e, hk, -⟩ := c.spec hn h hu hp cu cp ez ex hU hV
  cases e
  refine ⟨c.chol, fun j => ?_, elboOfJ_congr hk⟩
  have := c.pos j
  rw [knDiag_congr hk] at this
  exact this

theorem Mat.Eqv.fits {A T : Mat} (h : A.Eqv T) : A.Fits T := ⟨h.r.le, h.c.le, fun _ _ => h.e⟩

/-- Posterior means with jitter. -/
theorem SparseMeanJ.spec {v : List ℝ} {ws : List RV} (c : SparseMeanJ ε (runOps ops {}) pu p o m q (.num ys) v) (hn : ∀ o ∈ ops, o.Natural)
    (h : Regular G (renoise (jit ε) ops)) (hu : Attached (runOps ops {}) m pu) (hp : Attached (runOps ops {}) m p)
    (hq : Attached (runOps ops {}) m q) (cu : Rows (G pu) zs) (cp : Rows (G p) xs) (cq : Rows (G q) ys)
    (ez : o.z = .num zs) (ex : o.x = .num xs) (hU : (reading (renoise (jit ε) ops)).F m pu (.num zs) = some us)
    (hV : (reading (renoise (jit ε) ops)).F m p (.num xs) = some vs) (hW : (reading (renoise (jit ε) ops)).F m q (.num ys) = some ws)
    {S : SO RV} (hS : (reading (renoise (jit ε) ops)).S m = S) :
    (noisyGram S us o.noiseZ + ε • 1).PosDef ∧
    v = ws.map fun w => S.E w + ∑ a, S.C (us.get a) w * ((noisyGram S us o.noiseZ + ε • 1)⁻¹ *ᵥ muShiftJ ε o.method (noisyGram S us o.noiseZ)
      (crossGram S us vs) (fun j => S.C (vs.get j) (vs.get j)) (fun j => o.noiseX.mat.e j j) fun j => o.y.getD j 0 - S.E (vs.get j)) a := by
  subst hS
  obtain ⟨g, ybar, u, B, w', c, hm, hB, hw, hv⟩ := c
  obtain ⟨kx, e, hk, -⟩ := c.spec hn h hu hp cu cp ez ex hU hV
  cases e
  have hu' := (renoise_attached (φ := jit ε) hn).2 hu
  have hq' := (renoise_attached (φ := jit ε) hn).2 hq
  rw [ez] at hB
  rw [C54_jitter_mean hn] at hm
  rw [C54_jitter_kernel hn] at hB
  have fm := h.mean_eq hq' cq hm hW
  have fB := h.kernel_eq hu' hq' cu cq hB hU hW
  have lB : B.c = ws.length := fB.c
  have fw := (tmulVec_fits fB.fits hw)
  have lw : w'.length = ws.length := by
    unfold Mat.tmulVec at hw
    split at hw
    · cases hw; simp [lB]
    · cases hw
  have ew := fw.2 (by simpa using lw)
  subst fm ew
  refine ⟨c.chol, ?_⟩
  unfold zipCol at hv
  rw [if_pos (by simp)] at hv
  cases hv
  rw [List.zipWith_map, List.zipWith_self, muShiftJ_congr hk]

/-- Posterior kernels with jitter. -/
theorem SparseKernelJ.spec {A : Mat} {ws ws' : List RV} (c : SparseKernelJ ε (runOps ops {}) pu p o m q q' (.num ys) (.num ys') A)
    (hn : ∀ o ∈ ops, o.Natural) (h : Regular G (renoise (jit ε) ops)) (hu : Attached (runOps ops {}) m pu) (hp : Attached (runOps ops {}) m p)
    (hq : Attached (runOps ops {}) m q) (hq' : Attached (runOps ops {}) m q') (cu : Rows (G pu) zs) (cp : Rows (G p) xs) (cq : Rows (G q) ys)
    (cq' : Rows (G q') ys') (ez : o.z = .num zs) (ex : o.x = .num xs) (hU : (reading (renoise (jit ε) ops)).F m pu (.num zs) = some us)
    (hV : (reading (renoise (jit ε) ops)).F m p (.num xs) = some vs) (hW : (reading (renoise (jit ε) ops)).F m q (.num ys) = some ws)
    (hW' : (reading (renoise (jit ε) ops)).F m q' (.num ys') = some ws') {S : SO RV} (hS : (reading (renoise (jit ε) ops)).S m = S) :
    (noisyGram S us o.noiseZ + ε • 1).PosDef ∧ o.noiseZ.r = us.length ∧ o.noiseZ.c = us.length ∧
    (∀ j, 0 < knDiag o.method (noisyGram S us o.noiseZ + ε • 1) (crossGram S us vs) (fun j => S.C (vs.get j) (vs.get j)) (fun j => o.noiseX.mat.e j j) j) ∧
    A.r = ws.length ∧ A.c = ws'.length ∧ ∀ i < ws.length, ∀ j < ws'.length, A.e i j = S.C (ws.getD i 0) (ws'.getD j 0)
      - quadSum S us (noisyGram S us o.noiseZ + ε • 1)⁻¹ (ws.getD i 0) (ws'.getD j 0)
      + quadSum S us (subspaceAJ ε o.method (noisyGram S us o.noiseZ) (crossGram S us vs) (fun j => S.C (vs.get j) (vs.get j))
        (fun j => o.noiseX.mat.e j j))⁻¹ (ws.getD i 0) (ws'.getD j 0) := by
  subst hS
  obtain ⟨g, ybar, K, B, C, Q, P, R, c, -, hK, hB, hC, hQ, hP, hR, hA⟩ := c
  obtain ⟨kx, e, hk, zr, zc, -⟩ := c.spec hn h hu hp cu cp ez ex hU hV
  cases e
  have au := (renoise_attached (φ := jit ε) hn).2 hu
  have aq := (renoise_attached (φ := jit ε) hn).2 hq
  have aq' := (renoise_attached (φ := jit ε) hn).2 hq'
  rw [ez] at hB hC
  rw [C54_jitter_kernel hn] at hK hB hC
  have fK := h.kernel_eq aq aq' cq cq' hK hW hW'
  have fB := h.kernel_eq au aq cu cq hB hU hW
  have fC := h.kernel_eq au aq' cu cq' hC hU hW'
  have fQ := quad_fits fB.fits fC.fits hQ
  have fR := quad_fits fB.fits fC.fits hR
  have sQ := quad_some hQ
  have sR := quad_some hR
  have rB : B.c = ws.length := fB.c
  have rC : C.c = ws'.length := fC.c
  have rK : K.r = ws.length := fK.r
  have cK : K.c = ws'.length := fK.c
  obtain ⟨-, -, rfl⟩ := Mat.sub_some hP
  obtain ⟨-, -, rfl⟩ := Mat.add_some hA
  have hpos := fun j => (knDiag_congr (Kz := noisyGram ((reading (renoise (jit ε) ops)).S m) us o.noiseZ + ε • 1) hk) ▸ c.pos j
  refine ⟨c.chol, zr, zc, hpos, rK, cK, fun i hi j hj => ?_⟩
  show K.e i j - Q.e i j + R.e i j = _
  rw [fK.e i hi j hj, fQ.e (sQ.1.trans rB) (sQ.2.trans rC) i hi j hj, fR.e (sR.1.trans rB) (sR.2.trans rC) i hi j hj, subspaceAJ_congr hk]
  rfl

/-- **C62, calls return.** With any jitter everything is computed: also with repeated inducing points, and without noise in the inducing points. -/
theorem C62_returns (h : Tame G ops) (hx : Exact ops) (hs : Steady ops) (hε : 0 < ε)
    (hu : Attached (runOps ops {}) m pu) (hp : Attached (runOps ops {}) m p) (hq : Attached (runOps ops {}) m q) (hq' : Attached (runOps ops {}) m q')
    (cu : Rows (G pu) zs) (cp : Rows (G p) xs) (cq : Rows (G q) ys) (cq' : Rows (G q') ys') (ez : o.z = .num zs) (ex : o.x = .num xs) (fit : o.Fit)
    (hd : o.noiseX.isDiagonal = true) (hz : (o.noiseZ.sq zs.length).PosSemidef) (hpos : ∀ j < xs.length, 0 < o.noiseX.mat.e j j) :
    (∃ r, ElboJ ε (runOps ops {}) pu p o m r) ∧ (∃ v, SparseMeanJ ε (runOps ops {}) pu p o m q (.num ys) v ∧ v.length = ys.length) ∧
    ∃ A, SparseKernelJ ε (runOps ops {}) pu p o m q q' (.num ys) (.num ys') A ∧ A.r = ys.length ∧ A.c = ys'.length := by
  have R := h.jitter hx hs hε
  have hn := h.natural
  have au := (renoise_attached (φ := jit ε) hn).2 hu
  have ap := (renoise_attached (φ := jit ε) hn).2 hp
  have aq := (renoise_attached (φ := jit ε) hn).2 hq
  have aq' := (renoise_attached (φ := jit ε) hn).2 hq'
  obtain ⟨us, hU, lu⟩ := R.value au cu
  obtain ⟨vs, hV, lv⟩ := R.value ap cp
  obtain ⟨A, hA, rA, cA⟩ := R.kernel au au cu cu
  obtain ⟨Z, hZ, rZ, cZ⟩ := R.kernel au ap cu cp
  obtain ⟨d, hd', ld⟩ := R.elwise ap ap cp cp rfl
  obtain ⟨mx, hmx, lmx⟩ := R.mean ap cp
  obtain ⟨mz, hmz, lmz⟩ := R.mean au cu
  obtain ⟨zr, zc, xr, xc, ly⟩ := fit
  rw [ez] at zr zc
  rw [ex] at xr xc ly
  change _ = zs.length at zr zc
  change _ = xs.length at xr xc ly
  have eA := R.kernel_eq au au cu cu hA hU hU
  have eZ := R.kernel_eq au ap cu cp hZ hU hV
  have ed := R.elwise_eq ap ap cp cp rfl hd' hV hV
  have ev := R.mean_eq ap cp hmx hV
  set S := (reading (renoise (jit ε) ops)).S m with hS
  have hadd : A.add o.noiseZ = some ⟨A.r, A.c, fun i j => A.e i j + o.noiseZ.e i j⟩ := Mat.add_of (rA.trans zr.symm) (cA.trans zc.symm)
  have eK : Mat.sq ⟨A.r, A.c, fun i j => A.e i j + o.noiseZ.e i j⟩ us.length = noisyGram S us o.noiseZ := by
    ext i j
    show A.e i j + o.noiseZ.e i j = S.C (us.get i) (us.get j) + o.noiseZ.e i j
    rw [eA.e i i.2 j j.2]
    show S.C (us.getD i 0) (us.getD j 0) + _ = _
    rw [getD_get i.2, getD_get j.2]
    rfl
  have hPD : (noisyGram S us o.noiseZ + ε • 1).PosDef :=
    PosDef.posSemidef_add ((gram_posSemidef _ _ (R.pos m)).add (lu ▸ hz)) (smul_one_posDef hε)
  have hkn : ∀ j, 0 < knDiag o.method (noisyGram S us o.noiseZ + ε • 1) (crossGram S us vs) (fun j => S.C (vs.get j) (vs.get j))
      (fun j => o.noiseX.mat.e j j) j := by
    rw [noisyGram_jit] at hPD ⊢
    refine knDiag_pos_gram (N := jit ε o.noiseZ) (R.pos m) (zr.trans lu.symm) (zc.trans lu.symm) ?_ hPD (fun _ => rfl)
      fun j => hpos j (lt_of_lt_of_eq j.2 lv)
    rw [jit_sq]
    exact (lu ▸ hz).add (smul_one_posSemidef hε.le)
  let g : Ingredients := ⟨us.length, vs.length, noisyGram S us o.noiseZ, crossGram S us vs, fun j => S.C (vs.get j) (vs.get j), fun j => o.noiseX.mat.e j j⟩
  have c : ComputedJ ε (runOps ops {}) pu p o m g (fun j => o.y.getD j 0 - S.E (vs.get j)) := by
    refine ⟨⟨A, _, ?_, hadd, rA.trans lu.symm, cA.trans lu.symm, eK⟩, hd, hPD, ⟨Z, ?_, rZ.trans lu.symm, cZ.trans lv.symm, fun i j => ?_⟩,
      ⟨xr.trans lv.symm, xc.trans lv.symm, fun j => rfl⟩, fun _ => ⟨d, ?_, ld.trans lv.symm, fun j => ?_⟩, hkn,
      ⟨mx, ?_, lmx.trans lv.symm, ly.trans lv.symm, fun j => ?_⟩, ⟨mz, ?_, lmz.trans lu.symm⟩, (innerA_posDef hkn).add_posSemidef (PosSemidef.one.smul hε.le)⟩
    · rw [ez, C54_jitter_kernel hn]; exact hA
    · rw [ez, ex, C54_jitter_kernel hn]; exact hZ
    · rw [eZ.e i i.2 j j.2]
      show S.C (us.getD i 0) (vs.getD j 0) = _
      rw [getD_get i.2, getD_get j.2]
      rfl
    · rw [ex, C54_jitter_elwise hn]; exact hd'
    · rw [ed, List.getD_eq_getElem?_getD, List.getElem?_eq_getElem (by simpa using (show (j : ℕ) < vs.length from j.2))]
      simp [g]
    · rw [ex, C54_jitter_mean hn]; exact hmx
    · have hb : (j : ℕ) < (vs.map S.E).length := by simpa using (show (j : ℕ) < vs.length from j.2)
      rw [ev, getD_get_real hb, List.getElem_map]
      rfl
    · rw [ez, C54_jitter_mean hn]; exact hmz
  refine ⟨⟨_, g, _, c, rfl⟩, ?_, ?_⟩
  · obtain ⟨u, hu1, lu1⟩ := R.mean aq cq
    obtain ⟨B, hB, rB, cB⟩ := R.kernel au aq cu cq
    refine ⟨_, ⟨g, _, u, B, _, c, (C54_jitter_mean hn).2 hu1, ?_, if_pos (rB.trans lu.symm), if_pos ?_⟩, ?_⟩
    · rw [ez, C54_jitter_kernel hn]; exact hB
    · simp [lu1, cB]
    · simp [lu1, cB]
  · obtain ⟨K, hK, rK, cK⟩ := R.kernel aq aq' cq cq'
    obtain ⟨B, hB, rB, cB⟩ := R.kernel au aq cu cq
    obtain ⟨C, hC, rC, cC⟩ := R.kernel au aq' cu cq'
    refine ⟨_, ⟨g, _, K, B, C, _, _, _, c, ?_, (C54_jitter_kernel hn).2 hK, ?_, ?_, if_pos ⟨rB.trans lu.symm, rC.trans lu.symm⟩,
      Mat.sub_of (rK.trans cB.symm) (cK.trans cC.symm), if_pos ⟨rB.trans lu.symm, rC.trans lu.symm⟩,
      Mat.add_of (rK.trans cB.symm) (cK.trans cC.symm)⟩, rK, cK⟩
    · show (subspaceA o.method (noisyGram S us o.noiseZ + ε • 1) _ _ _ + ε • 1).PosDef
      rw [subspaceA_eq _ _ _ _ hPD]
      exact (sparseA_posDef' hPD (by rw [← knDiag_eq _ _ _ _ hPD]; exact hkn)).add_posSemidef (PosSemidef.one.smul hε.le)
    · rw [ez, C54_jitter_kernel hn]; exact hB
    · rw [ez, C54_jitter_kernel hn]; exact hC

/-- What is computed has a limit. -/
theorem jitter_tendsto (h : Regular G ops) (hm : Unmultiplied ops) (hx : Exact ops) (m : MId) :
    (∀ u, Filter.Tendsto (fun ε => ((reading (renoise (jit ε) ops)).S m).E u) (𝓝[>] 0) (𝓝 (((reading ops).S m).E u))) ∧
    ∀ u v, Filter.Tendsto (fun ε => ((reading (renoise (jit ε) ops)).S m).C u v) (𝓝[>] 0) (𝓝 (((reading ops).S m).C u v)) := by
  have hr : ∀ᶠ ε in 𝓝[>] (0 : ℝ), Regular G (renoise (jit ε) ops) :=
    eventually_mem_nhdsWithin.mono fun ε hε => h.toTame.jitter hx (.inl hm) hε
  have hφ : ∀ N i j, Filter.Tendsto (fun ε => (jit ε N).e i j) (𝓝[>] 0) (𝓝 (N.e i j)) := by
    intro N i j
    have : Filter.Tendsto (fun ε : ℝ => N.e i j + if i = j then ε else 0) (𝓝 0) (𝓝 (N.e i j + if i = j then (0 : ℝ) else 0)) := by
      refine tendsto_const_nhds.add ?_
      split
      · exact Filter.tendsto_id
      · exact tendsto_const_nhds
    rw [ite_self, add_zero] at this
    exact this.mono_left nhdsWithin_le_nhds
  exact reading_tendsto h hr hm hx hφ m

section
variable {T : ℝ → SO RV} {S : SO RV} (hE : ∀ u, Filter.Tendsto (fun ε => (T ε).E u) (𝓝[>] 0) (𝓝 (S.E u)))
  (hC : ∀ u v, Filter.Tendsto (fun ε => (T ε).C u v) (𝓝[>] 0) (𝓝 (S.C u v)))

include hC in
theorem tendsto_noisyGram (us : List RV) (N : Mat) : Filter.Tendsto (fun ε => noisyGram (T ε) us N) (𝓝[>] 0) (𝓝 (noisyGram S us N)) :=
  tendsto_pi_nhds.2 fun i => tendsto_pi_nhds.2 fun j => (hC (us.get i) (us.get j)).add_const _

include hC in
theorem tendsto_crossGram (us vs : List RV) : Filter.Tendsto (fun ε => crossGram (T ε) us vs) (𝓝[>] 0) (𝓝 (crossGram S us vs)) :=
  tendsto_pi_nhds.2 fun i => tendsto_pi_nhds.2 fun j => hC (us.get i) (vs.get j)

include hC in
theorem tendsto_variances (vs : List RV) : Filter.Tendsto (fun ε (j : Fin vs.length) => (T ε).C (vs.get j) (vs.get j)) (𝓝[>] 0)
    (𝓝 fun j => S.C (vs.get j) (vs.get j)) := tendsto_pi_nhds.2 fun j => hC (vs.get j) (vs.get j)

include hE in
theorem tendsto_center (y : List ℝ) (vs : List RV) : Filter.Tendsto (fun ε (j : Fin vs.length) => y.getD j 0 - (T ε).E (vs.get j)) (𝓝[>] 0)
    (𝓝 fun j => y.getD j 0 - S.E (vs.get j)) := tendsto_pi_nhds.2 fun j => (hE (vs.get j)).const_sub _

include hC in
theorem tendsto_quadSum {us : List RV} {W : ℝ → Matrix (Fin us.length) (Fin us.length) ℝ} {W' : Matrix (Fin us.length) (Fin us.length) ℝ}
    (hW : Filter.Tendsto W (𝓝[>] 0) (𝓝 W')) (u v : RV) :
    Filter.Tendsto (fun ε => quadSum (T ε) us (W ε) u v) (𝓝[>] 0) (𝓝 (quadSum S us W' u v)) :=
  tendsto_finsetSum _ fun a _ => tendsto_finsetSum _ fun b _ => ((hC (us.get a) u).mul (tendsto_matEntry hW a b)).mul (hC (us.get b) v)

end

/-- **C62, the limit of the ELBO.** As the jitter goes to zero, the ELBO goes to the ELBO without jitter. -/
theorem C62_elbo_limit (h : Regular G ops) (hm : Unmultiplied ops) (hx : Exact ops)
    (hu : Attached (runOps ops {}) m pu) (hp : Attached (runOps ops {}) m p) (cu : Rows (G pu) zs) (cp : Rows (G p) xs)
    (ez : o.z = .num zs) (ex : o.x = .num xs) (fit : o.Fit) {r : ℝ} {r' : ℝ → ℝ} (hr : (getElbo (runOps ops {}) pu p o m {}).2 = some r)
    (hr' : ∀ ε > 0, ElboJ ε (runOps ops {}) pu p o m (r' ε)) : Filter.Tendsto r' (𝓝[>] 0) (𝓝 r) := by
  obtain ⟨us, hU, lu⟩ := h.value hu cu
  obtain ⟨vs, hV, lv⟩ := h.value hp cp
  obtain ⟨zr, zc, xr, xc, ly⟩ := fit
  rw [ez] at zr zc
  rw [ex] at xr xc ly
  change _ = zs.length at zr zc
  change _ = xs.length at xr xc ly
  obtain ⟨kx, hPD, hk, hpos, -, rfl⟩ := elbo_spec h.reads (ez ▸ hU) (ex ▸ hV) (zr.trans lu.symm) (zc.trans lu.symm) (xr.trans lv.symm) hr
  obtain ⟨hE, hC⟩ := jitter_tendsto h hm hx m
  have hs : ∀ ε > (0 : ℝ), _ := fun ε hε => (hr' ε hε).spec h.natural (h.toTame.jitter hx (.inl hm) hε) hu hp cu cp ez ex
    (us := us) (vs := vs) (by rw [reading_renoise (φ := jit ε) h.elem hm m]; exact hU) (by rw [reading_renoise (φ := jit ε) h.elem hm m]; exact hV) rfl
  have e : elboOf o.method (noisyGram ((reading ops).S m) us o.noiseZ) (crossGram ((reading ops).S m) us vs) kx (fun j => o.noiseX.mat.e j j)
      (fun j => o.y.getD j 0 - ((reading ops).S m).E (vs.get j)) = elboOf o.method (noisyGram ((reading ops).S m) us o.noiseZ)
      (crossGram ((reading ops).S m) us vs) (fun j => ((reading ops).S m).C (vs.get j) (vs.get j)) (fun j => o.noiseX.mat.e j j)
      (fun j => o.y.getD j 0 - ((reading ops).S m).E (vs.get j)) := by
    cases hmu : o.method with
    | dtc => rfl
    | vfe => rw [hk (by rw [hmu]; simp)]
    | fitc => rw [hk (by rw [hmu]; simp)]
  rw [e]
  rw [knDiag_congr hk, knDiag_eq _ _ _ _ hPD] at hpos
  refine Filter.Tendsto.congr' (eventually_mem_nhdsWithin.mono fun ε hε => (hs ε hε).2.2.symm) ?_
  exact tendsto_elbo nhdsWithin_le_nhds (tendsto_noisyGram hC us o.noiseZ) (tendsto_crossGram hC us vs) (tendsto_variances hC vs)
    (tendsto_center hE o.y vs) hPD hpos (eventually_mem_nhdsWithin.mono fun ε hε => ⟨(hs ε hε).1, (hs ε hε).2.1, le_of_lt hε⟩)

/-- **C62, the limit of posteriors.** As the jitter goes to zero, posterior means and kernels go to those of the measure that conditioning gives. -/
theorem C62_limit {ops' : List Op} {m' : MId} (h : Regular G ops) (h' : Regular G ops') (c : Gives ops' ops m (.pseudo pu p o) m')
    (hm : Unmultiplied ops) (hx : Exact ops)
    (hu : Attached (runOps ops {}) m pu) (hp : Attached (runOps ops {}) m p) (hq : Attached (runOps ops {}) m q) (hq' : Attached (runOps ops {}) m q')
    (cu : Rows (G pu) zs) (cp : Rows (G p) xs) (cq : Rows (G q) ys) (cq' : Rows (G q') ys') (ez : o.z = .num zs) (ex : o.x = .num xs)
    (hn : ∀ j < xs.length, 0 < o.noiseX.mat.e j j) (hz : (o.noiseZ.sq zs.length).PosSemidef) {v : List ℝ} {v' : ℝ → List ℝ} {A : Mat} {A' : ℝ → Mat}
    (hv : MeanCall (runOps ops' {}) m' q (.num ys) v) (hv' : ∀ ε > 0, SparseMeanJ ε (runOps ops {}) pu p o m q (.num ys) (v' ε))
    (hA : KernelCall (runOps ops' {}) m' q q' (.num ys) (.num ys') A)
    (hA' : ∀ ε > 0, SparseKernelJ ε (runOps ops {}) pu p o m q q' (.num ys) (.num ys') (A' ε)) :
    (∀ i < ys.length, Filter.Tendsto (fun ε => (v' ε).getD i 0) (𝓝[>] 0) (𝓝 (v.getD i 0))) ∧
    ∀ i < ys.length, ∀ j < ys'.length, Filter.Tendsto (fun ε => (A' ε).e i j) (𝓝[>] 0) (𝓝 (A.e i j)) := by
  obtain ⟨us, hU, lu⟩ := h.value hu cu
  obtain ⟨vs, hV, lv⟩ := h.value hp cp
  obtain ⟨ws, hW, lw⟩ := h.value hq cq
  obtain ⟨ws', hW', lw'⟩ := h.value hq' cq'
  obtain ⟨after, eo⟩ := c.split
  obtain ⟨sS, sF⟩ := h'.stable (b := ops) ⟨_, eo.symm⟩ c.has
  obtain ⟨cF, us1, vs1, hU1, hV1, cS⟩ := c.law h'.reads
  have hU0 := hU1
  have hV0 := hV1
  rw [sF _ hu, ez, hU] at hU1
  rw [sF _ hp, ex, hV] at hV1
  cases hU1
  cases hV1
  obtain ⟨hPD, ly⟩ := c.firm h'.firm us vs hU0 hV0
  rw [sS] at cS hPD
  have hpos : ∀ j, 0 < sparseNoise o.method (noisyGram ((reading ops).S m) us o.noiseZ) (crossGram ((reading ops).S m) us vs)
      (fun j => ((reading ops).S m).C (vs.get j) (vs.get j)) (fun j => o.noiseX.mat.e j j) j := by
    rw [← knDiag_eq _ _ _ _ hPD]
    exact knDiag_pos_gram (h.pos m) cS.zr cS.zc (lu ▸ hz) hPD (fun _ => rfl) fun j => hn j (lt_of_lt_of_eq j.2 lv)
  obtain ⟨hE, hC⟩ := jitter_tendsto h hm hx m
  have hF : ∀ ε, (reading (renoise (jit ε) ops)).F m = (reading ops).F m := fun ε => reading_renoise (φ := jit ε) h.elem hm m
  have R : ∀ ε > 0, Regular G (renoise (jit ε) ops) := fun ε hε => h.toTame.jitter hx (.inl hm) hε
  have sm : ∀ ε > (0 : ℝ), _ := fun ε hε => (hv' ε hε).spec h.natural (R ε hε) hu hp hq cu cp cq ez ex
    (us := us) (vs := vs) (ws := ws) (by rw [hF]; exact hU) (by rw [hF]; exact hV) (by rw [hF]; exact hW) rfl
  have sk : ∀ ε > (0 : ℝ), _ := fun ε hε => (hA' ε hε).spec h.natural (R ε hε) hu hp hq hq' cu cp cq cq' ez ex
    (us := us) (vs := vs) (ws := ws) (ws' := ws') (by rw [hF]; exact hU) (by rw [hF]; exact hV) (by rw [hF]; exact hW) (by rw [hF]; exact hW') rfl
  have tK := tendsto_noisyGram hC us o.noiseZ
  have tZ := tendsto_crossGram hC us vs
  have tx := tendsto_variances hC vs
  have ty := tendsto_center hE o.y vs
  have hp1 : ∀ᶠ ε in 𝓝[>] (0 : ℝ), (noisyGram ((reading (renoise (jit ε) ops)).S m) us o.noiseZ + ε • 1).PosDef :=
    eventually_mem_nhdsWithin.mono fun ε hε => (sm ε hε).1
  have fW : (reading ops').F m' q (.num ys) = some ws := by rw [cF q hq, sF q hq]; exact hW
  have fW' : (reading ops').F m' q' (.num ys') = some ws' := by rw [cF q' hq', sF q' hq']; exact hW'
  refine ⟨fun i hi => ?_, fun i hi j hj => ?_⟩ <;> have hi' : i < ws.length := lw ▸ hi
  · rw [h'.mean_eq (c.attached hq) cq hv fW]
    refine Filter.Tendsto.congr' (eventually_mem_nhdsWithin.mono fun ε hε => ?_)
      (f₁ := fun ε => ((reading (renoise (jit ε) ops)).S m).E ws[i] + ∑ a, ((reading (renoise (jit ε) ops)).S m).C (us.get a) ws[i] *
        ((noisyGram ((reading (renoise (jit ε) ops)).S m) us o.noiseZ + ε • 1)⁻¹ *ᵥ muShiftJ ε o.method
          (noisyGram ((reading (renoise (jit ε) ops)).S m) us o.noiseZ) (crossGram ((reading (renoise (jit ε) ops)).S m) us vs)
          (fun j => ((reading (renoise (jit ε) ops)).S m).C (vs.get j) (vs.get j)) (fun j => o.noiseX.mat.e j j)
          fun j => o.y.getD j 0 - ((reading (renoise (jit ε) ops)).S m).E (vs.get j)) a) ?_
    · show _ = (v' ε).getD i 0
      rw [(sm ε hε).2]
      simp [List.getD_eq_getElem?_getD, List.getElem?_eq_getElem hi']
    · have tw := tendsto_sparseWeights (μ := o.method) (noise := fun j => o.noiseX.mat.e j j) nhdsWithin_le_nhds tK tZ tx ty hPD hpos hp1
      have := (hE ws[i]).add (tendsto_finsetSum Finset.univ fun a _ => (hC (us.get a) ws[i]).mul (tendsto_pi_nhds.1 tw a))
      rw [← cS.E hPD ly] at this
      simpa [List.getD_eq_getElem?_getD, List.getElem?_eq_getElem hi'] using this
  · have hj' : j < ws'.length := lw' ▸ hj
    rw [(h'.kernel_eq (c.attached hq) (c.attached hq') cq cq' hA fW fW').e i hi' j hj']
    show Filter.Tendsto _ _ (𝓝 (((reading ops').S m').C (ws.getD i 0) (ws'.getD j 0)))
    rw [cS.C hPD]
    refine Filter.Tendsto.congr' (eventually_mem_nhdsWithin.mono fun ε hε => ((sk ε hε).2.2.2.2.2.2 i hi' j hj').symm) ?_
    exact ((hC _ _).sub (tendsto_quadSum hC (tendsto_inv (tendsto_jitter nhdsWithin_le_nhds tK) hPD.det_pos.ne') _ _)).add
      (tendsto_quadSum hC (tendsto_subspace (μ := o.method) (noise := fun j => o.noiseX.mat.e j j) nhdsWithin_le_nhds tK tZ tx hPD hpos hp1) _ _)

/-- The matrix of `quadSum`. -/
noncomputable def quads (S : SO RV) (us ws : List RV) (W : Matrix (Fin us.length) (Fin us.length) ℝ) : Matrix (Fin ws.length) (Fin ws.length) ℝ :=
  fun i j => quadSum S us W (ws.get i) (ws.get j)

theorem quadSum_mat (S : SO RV) (us ws : List RV) (W : Matrix (Fin us.length) (Fin us.length) ℝ) :
    (quads S us ws W) = (crossGram S us ws)ᵀ * W * (crossGram S us ws) := by
  ext i j
  unfold quads
  rw [quadSum_eq, Matrix.mul_assoc, Matrix.mul_apply]
  refine Finset.sum_congr rfl fun a _ => ?_
  rw [Matrix.mul_apply]
  rfl

theorem quadSum_posSemidef (S : SO RV) (us ws : List RV) {W : Matrix (Fin us.length) (Fin us.length) ℝ} (hW : W.PosSemidef) :
    (quads S us ws W).PosSemidef := by
  rw [quadSum_mat]
  simpa using conj_posSemidef hW (crossGram S us ws)ᵀ

/-- Precisions are in the opposite order. -/
theorem inv_sub_posSemidef {n : ℕ} {A D : Matrix (Fin n) (Fin n) ℝ} (hA : A.PosDef) (hD : D.PosSemidef) : (A⁻¹ - (A + D)⁻¹).PosSemidef := by
  refine PosSemidef.of_dotProduct_mulVec_nonneg (hA.inv.isHermitian.sub (hA.add_posSemidef hD).inv.isHermitian) fun y => ?_
  have := quad_le hA hD y
  rw [star_trivial, sub_mulVec, dotProduct_sub]
  linarith

/-- **C62, variances.** With jitter, posteriors with inducing points still have covariance matrices, and these are at most those of the prior. -/
theorem C62_variance (h : Tame G ops) (hx : Exact ops) (hs : Steady ops) (hε : 0 < ε)
    (hu : Attached (runOps ops {}) m pu) (hp : Attached (runOps ops {}) m p) (hq : Attached (runOps ops {}) m q)
    (cu : Rows (G pu) zs) (cp : Rows (G p) xs) (cq : Rows (G q) ys) (ez : o.z = .num zs) (ex : o.x = .num xs)
    (hz : (o.noiseZ.sq zs.length).PosSemidef) {A K : Mat} (hA : SparseKernelJ ε (runOps ops {}) pu p o m q q (.num ys) (.num ys) A)
    (hK : KernelCallJ ε (runOps ops {}) m q q (.num ys) (.num ys) K) :
    (A.sq ys.length).PosSemidef ∧ (K.sq ys.length - A.sq ys.length).PosSemidef := by
  have R := h.jitter hx hs hε
  have hn := h.natural
  have au := (renoise_attached (φ := jit ε) hn).2 hu
  have ap := (renoise_attached (φ := jit ε) hn).2 hp
  have aq := (renoise_attached (φ := jit ε) hn).2 hq
  obtain ⟨us, hU, lu⟩ := R.value au cu
  obtain ⟨vs, hV, lv⟩ := R.value ap cp
  obtain ⟨ws, hW, lw⟩ := R.value aq cq
  obtain ⟨hPD, zr, zc, hpos, -, -, eA⟩ := hA.spec hn R hu hp hq hq cu cp cq cq ez ex hU hV hW hW rfl
  rw [C54_jitter_kernel hn] at hK
  have fK := R.kernel_eq aq aq cq cq hK hW hW
  have hS := R.pos m
  set S := (reading (renoise (jit ε) ops)).S m with hS'
  set W := subspaceAJ ε o.method (noisyGram S us o.noiseZ) (crossGram S us vs) (fun j => S.C (vs.get j) (vs.get j)) (fun j => o.noiseX.mat.e j j) with hW'
  have eW : W = (noisyGram S us o.noiseZ + ε • 1) + (crossGram S us vs * (diagonal (sparseNoise o.method (noisyGram S us o.noiseZ + ε • 1)
      (crossGram S us vs) (fun j => S.C (vs.get j) (vs.get j)) (fun j => o.noiseX.mat.e j j)))⁻¹ * (crossGram S us vs)ᵀ + ε • 1) := by
    rw [hW']
    unfold subspaceAJ
    rw [subspaceA_eq _ _ _ _ hPD, sparseA, add_assoc]
  have hD : (crossGram S us vs * (diagonal (sparseNoise o.method (noisyGram S us o.noiseZ + ε • 1) (crossGram S us vs)
      (fun j => S.C (vs.get j) (vs.get j)) (fun j => o.noiseX.mat.e j j)))⁻¹ * (crossGram S us vs)ᵀ + ε • 1).PosSemidef := by
    refine (conj_posSemidef (PosDef.inv (posDef_diagonal_iff.2 ?_)).posSemidef _).add (smul_one_posSemidef hε.le)
    rw [← knDiag_eq _ _ _ _ hPD]
    exact hpos
  have hWp : W.PosDef := by rw [eW]; exact hPD.add_posSemidef hD
  rw [← lw]
  have eA' : A.sq ws.length = (gram S ws - nystrom (noisyGram S us (jit ε o.noiseZ)) (crossGram S us ws)) +
      (quads S us ws W⁻¹) := by
    rw [nystrom_eq]
    ext i j
    show A.e i j = S.C (ws.get i) (ws.get j) - quadSum S us (noisyGram S us (jit ε o.noiseZ))⁻¹ (ws.get i) (ws.get j) + quadSum S us W⁻¹ (ws.get i) (ws.get j)
    rw [eA i i.2 j j.2, getD_get i.2, getD_get j.2, noisyGram_jit]
    rfl
  have eK' : K.sq ws.length = gram S ws := by
    ext i j
    show K.e i j = _
    rw [fK.e i i.2 j j.2]
    simp [covMat, gram]
  constructor
  · rw [eA']
    refine (residual_posSemidef (noise := jit ε o.noiseZ) hS zr zc ?_ (noisyGram_jit (S := S) (us := us) (ε := ε) o.noiseZ ▸ hPD)).add (quadSum_posSemidef S us ws hWp.inv.posSemidef)
    rw [jit_sq]
    exact (lu ▸ hz).add (smul_one_posSemidef hε.le)
  · have e : K.sq ws.length - A.sq ws.length =
        (quads S us ws ((noisyGram S us o.noiseZ + ε • 1)⁻¹ - W⁻¹)) := by
      rw [eK', eA', nystrom_eq, noisyGram_jit]
      ext i j
      show S.C (ws.get i) (ws.get j) - (S.C (ws.get i) (ws.get j) - quadSum S us (noisyGram S us (jit ε o.noiseZ))⁻¹ (ws.get i) (ws.get j) +
        quadSum S us W⁻¹ (ws.get i) (ws.get j)) = quadSum S us ((noisyGram S us (jit ε o.noiseZ))⁻¹ - W⁻¹) (ws.get i) (ws.get j)
      rw [quadSum_sub]
      ring
    rw [e]
    refine quadSum_posSemidef S us ws ?_
    rw [eW]
    exact inv_sub_posSemidef hPD hD

end

/-! ## Examples -/

/-- Two inducing points at the same place, without noise. -/
def repeated (μ : Method) : PseudoData :=
  ⟨μ, .num [[0], [0]], ⟨2, 2, fun _ _ => 0⟩, .num [[1], [2]], ⟨⟨2, 2, fun i j => if i = j then 1 else 0⟩, true⟩, [1, 3]⟩

theorem repeated_noiseZ (μ : Method) : ((repeated μ).noiseZ.sq 2).PosSemidef := by
  have : (repeated μ).noiseZ.sq 2 = 0 := rfl
  rw [this]
  exact PosSemidef.zero

theorem repeated_noise (μ : Method) (j : ℕ) : 0 < (repeated μ).noiseX.mat.e j j := by simp [repeated]

/-- With jitter everything is computed, on top of a posterior. -/
example (μ : Method) {ε : ℝ} (hε : 0 < ε) : (∃ r, ElboJ ε (runOps oneLook {}) 0 0 (repeated μ) 1 r) ∧
    (∃ v, SparseMeanJ ε (runOps oneLook {}) 0 0 (repeated μ) 1 0 (.num [[3]]) v ∧ v.length = 1) ∧
    ∃ A, SparseKernelJ ε (runOps oneLook {}) 0 0 (repeated μ) 1 0 0 (.num [[3]]) (.num [[3]]) A ∧ A.r = 1 ∧ A.c = 1 := by
  have hp : Attached (runOps oneLook {}) 1 0 := attached_iff.2 (by decide +kernel)
  exact C62_returns oneLook_regular.toTame oneLook_exact (.inl oneLook_unmultiplied) hε hp hp hp hp (by simp [Rows]) (by simp [Rows]) (.one trivial) (.one trivial)
    rfl rfl ⟨rfl, rfl, rfl, rfl, rfl⟩ rfl (repeated_noiseZ μ) fun j _ => repeated_noise μ j

/-- They all give less than the log-density, in the model with jitter. -/
example {ε r : ℝ} (hε : 0 < ε) (hr : ElboJ ε (runOps oneLook {}) 0 0 (repeated .vfe) 1 r) {v : List ℝ} {K : Mat}
    (hv : MeanCallJ ε (runOps oneLook {}) 1 0 (.num [[1], [2]]) v) (hK : KernelCallJ ε (runOps oneLook {}) 1 0 0 (.num [[1], [2]]) (.num [[1], [2]]) K) :
    r ≤ (⟨fun j => v.getD j 0, K.sq 2 + (repeated .vfe).noiseX.mat.sq 2⟩ : Normal 2).logpdfFull fun j => (repeated .vfe).y.getD j 0 := by
  have hp : Attached (runOps oneLook {}) 1 0 := attached_iff.2 (by decide +kernel)
  exact C62_bound (zs := [[0], [0]]) (xs := [[1], [2]]) oneLook_regular.toTame oneLook_exact (.inl oneLook_unmultiplied) hε hp hp (by simp [Rows]) (by simp [Rows])
    rfl rfl rfl (repeated_noiseZ .vfe) (fun i _ j _ h => by simp [repeated, h]) hr hv hK

/-- They have variances of at most those of the prior. -/
example (μ : Method) {ε : ℝ} (hε : 0 < ε) {A K : Mat} (hA : SparseKernelJ ε (runOps oneLook {}) 0 0 (repeated μ) 1 0 0 (.num [[3], [4]]) (.num [[3], [4]]) A)
    (hK : KernelCallJ ε (runOps oneLook {}) 1 0 0 (.num [[3], [4]]) (.num [[3], [4]]) K) : (A.sq 2).PosSemidef ∧ (K.sq 2 - A.sq 2).PosSemidef := by
  have hp : Attached (runOps oneLook {}) 1 0 := attached_iff.2 (by decide +kernel)
  exact C62_variance oneLook_regular.toTame oneLook_exact (.inl oneLook_unmultiplied) hε hp hp hp (by simp [Rows]) (by simp [Rows]) (by simp [Rows])
    rfl rfl (repeated_noiseZ μ) hA hK

/-- One inducing point with noise, on top of a posterior. -/
def apart (μ : Method) : PseudoData :=
  ⟨μ, .num [[0]], ⟨1, 1, fun _ _ => 1⟩, .num [[1], [2]], ⟨⟨2, 2, fun i j => if i = j then 1 else 0⟩, true⟩, [1, 3]⟩

theorem apart_noiseZ (μ : Method) : ((apart μ).noiseZ.sq 1).PosDef := by
  show ((⟨1, 1, fun _ _ => 1⟩ : Mat).sq 1).PosDef
  rw [single_sq]
  exact smul_one_posDef one_pos

theorem apart_chol (μ : Method) (A K : Mat) (hA : KernelCall (runOps oneLook {}) 1 0 0 (.num [[0]]) (.num [[0]]) A) (hK : A.add (apart μ).noiseZ = some K) :
    (K.sq K.r).PosDef := by
  have hp : Attached (runOps oneLook {}) 1 0 := attached_iff.2 (by decide +kernel)
  obtain ⟨ws, hW, lw⟩ := oneLook_regular.value hp (xs := [[0]]) (.one trivial)
  have f := oneLook_regular.kernel_eq hp hp (.one trivial) (.one trivial) hA hW hW
  obtain ⟨-, -, rfl⟩ := Mat.add_some hK
  have hr : A.r = ws.length := f.r
  have e : Mat.sq ⟨A.r, A.c, fun i j => A.e i j + (apart μ).noiseZ.e i j⟩ ws.length = gram ((reading oneLook).S 1) ws + (apart μ).noiseZ.sq ws.length := by
    ext i j
    show A.e i j + _ = _
    rw [f.e i i.2 j j.2]
    simp [covMat, gram, Mat.sq]
  show (Mat.sq ⟨A.r, A.c, fun i j => A.e i j + (apart μ).noiseZ.e i j⟩ A.r).PosDef
  have key : ∀ n, n = ws.length → (Mat.sq ⟨A.r, A.c, fun i j => A.e i j + (apart μ).noiseZ.e i j⟩ n).PosDef := by
    rintro n rfl
    rw [e]
    exact PosDef.posSemidef_add (gram_posSemidef _ _ (oneLook_regular.pos 1)) (by rw [lw]; exact apart_noiseZ μ)
  exact key _ hr

/-- The program that conditions on them. -/
noncomputable def glance (μ : Method) : List Op := oneLook ++ [.condition 1 (.pseudo 0 0 (apart μ))]

theorem oneLook_solid : Solid (fun _ _ => True) oneLook :=
  C46_condition (m := 0) (p := 0) flat_solid (attached_iff.2 (by decide +kernel)) (.one trivial) rfl rfl rfl
    (by
      show ((⟨1, 1, fun _ _ => 1⟩ : Mat).sq 1).PosDef
      rw [single_sq]
      exact smul_one_posDef one_pos)

theorem glance_regular (μ : Method) : Regular (fun _ _ => True) (glance μ) :=
  (C46_condition_sparse oneLook_solid (attached_iff.2 (by decide +kernel)) (attached_iff.2 (by decide +kernel)) (.one trivial) (by simp [Rows])
    rfl rfl rfl rfl rfl (apart_noiseZ μ).posSemidef (fun j _ => by simp) (apart_chol μ)).regular

theorem glance_gives (μ : Method) : Gives (glance μ) oneLook 1 (.pseudo 0 0 (apart μ)) 2 :=
  ⟨⟨[], rfl⟩, by show 1 < (runOps oneLook {}).ms.length; decide +kernel, by decide +kernel⟩

/-- The limits: everything is computed, with and without jitter. -/
example (μ : Method) : ∃ (r : ℝ) (r' : ℝ → ℝ), (getElbo (runOps oneLook {}) 0 0 (apart μ) 1 {}).2 = some r ∧
    (∀ ε > 0, ElboJ ε (runOps oneLook {}) 0 0 (apart μ) 1 (r' ε)) ∧ Filter.Tendsto r' (𝓝[>] 0) (𝓝 r) := by
  have hp : Attached (runOps oneLook {}) 1 0 := attached_iff.2 (by decide +kernel)
  have hr := fun (ε : ℝ) (hε : ε > 0) => (C62_returns (o := apart μ) oneLook_regular.toTame oneLook_exact (.inl oneLook_unmultiplied) hε hp hp hp hp
    (.one trivial) (by simp [Rows]) (.one trivial : Rows _ [[3]]) (.one trivial : Rows _ [[3]]) rfl rfl ⟨rfl, rfl, rfl, rfl, rfl⟩ rfl
    (apart_noiseZ μ).posSemidef fun j _ => by simp [apart]).1
  obtain ⟨r, h0⟩ := C41_total (o := apart μ) oneLook_regular hp hp (.one trivial) (by simp [Rows]) rfl rfl ⟨rfl, rfl, rfl, rfl, rfl⟩ rfl
    (apart_noiseZ μ).posSemidef (fun j _ => by simp [apart]) (apart_chol μ)
  choose r' hr' using hr
  classical
  have h1 : ∀ ε > 0, ElboJ ε (runOps oneLook {}) 0 0 (apart μ) 1 (if h : ε > 0 then r' ε h else 0) := by
    intro ε hε
    rw [dif_pos hε]
    exact hr' ε hε
  exact ⟨r, fun ε => if h : ε > 0 then r' ε h else 0, h0, h1, C62_elbo_limit oneLook_regular oneLook_unmultiplied oneLook_exact hp hp (.one trivial)
    (by simp [Rows]) rfl rfl ⟨rfl, rfl, rfl, rfl, rfl⟩ h0 h1⟩

example (μ : Method) : ∃ (A : Mat) (A' : ℝ → Mat), KernelCall (runOps (glance μ) {}) 2 0 0 (.num [[3]]) (.num [[4]]) A ∧
    (∀ ε > 0, SparseKernelJ ε (runOps oneLook {}) 0 0 (apart μ) 1 0 0 (.num [[3]]) (.num [[4]]) (A' ε)) ∧
    Filter.Tendsto (fun ε => (A' ε).e 0 0) (𝓝[>] 0) (𝓝 (A.e 0 0)) := by
  have hp : Attached (runOps oneLook {}) 1 0 := attached_iff.2 (by decide +kernel)
  have hp' : Attached (runOps (glance μ) {}) 2 0 := (glance_gives μ).attached hp
  obtain ⟨v, hv, -⟩ := (glance_regular μ).mean hp' (xs := [[3]]) (.one trivial)
  obtain ⟨A, hA, -⟩ := (glance_regular μ).kernel hp' hp' (xs := [[3]]) (ys := [[4]]) (.one trivial) (.one trivial)
  have hr := fun (ε : ℝ) (hε : ε > 0) => (C62_returns (o := apart μ) oneLook_regular.toTame oneLook_exact (.inl oneLook_unmultiplied) hε hp hp hp hp
    (.one trivial) (by simp [Rows]) (.one trivial : Rows _ [[3]]) (.one trivial : Rows _ [[4]]) rfl rfl ⟨rfl, rfl, rfl, rfl, rfl⟩ rfl
    (apart_noiseZ μ).posSemidef fun j _ => by simp [apart]).2
  choose v' hv' using fun (ε : ℝ) (hε : ε > 0) => (hr ε hε).1
  choose A' hA' using fun (ε : ℝ) (hε : ε > 0) => (hr ε hε).2
  classical
  have h1 : ∀ ε > 0, SparseKernelJ ε (runOps oneLook {}) 0 0 (apart μ) 1 0 0 (.num [[3]]) (.num [[4]]) (if h : ε > 0 then A' ε h else ⟨0, 0, fun _ _ => 0⟩) := by
    intro ε hε
    rw [dif_pos hε]
    exact (hA' ε hε).1
  refine ⟨A, _, hA, h1, (C62_limit oneLook_regular (glance_regular μ) (glance_gives μ) oneLook_unmultiplied oneLook_exact hp hp hp hp (.one trivial)
    (by simp [Rows]) (.one trivial) (.one trivial) rfl rfl (fun j _ => by simp [apart]) (apart_noiseZ μ).posSemidef hv
    (v' := fun ε => if h : ε > 0 then v' ε h else []) (fun ε hε => ?_) hA h1).2 0 (by decide) 0 (by decide)⟩
  simp only [dif_pos hε]
  exact (hv' ε hε).1

end Stheno
