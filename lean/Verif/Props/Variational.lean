import Verif.Props.Sparse
import Verif.Variational

/-!
# C49: the optimal approximating distribution

`C49`: for VFE, the ELBO is the best that can be achieved by choosing a distribution for the inducing variables, and it is achieved only by the
distribution that the object computes, which is the distribution of the inducing variables in the posterior.
-/

namespace Stheno

open Matrix MeasureTheory ProbabilityTheory InformationTheory

/-- Random vectors with the same distribution. -/
theorem IsNormal.of_map {n : ℕ} {Ω Ω' : Type*} [MeasurableSpace Ω] [MeasurableSpace Ω'] {P : Measure Ω} {Q : Measure Ω'} {u : Ω → Fin n → ℝ}
    {v : Ω' → Fin n → ℝ} {g : Normal n} (hv : IsNormal Q v g) (hu : ∀ i, MemLp (fun ω => u ω i) 2 P) (he : P.map u = Q.map v) : IsNormal P u g := by
  have hm : AEMeasurable u P := aemeasurable_pi_lambda _ fun i => (hu i).aemeasurable
  have hs : ∀ i, AEStronglyMeasurable (fun x : Fin n → ℝ => x i) (P.map u) := fun i => (measurable_pi_apply i).aestronglyMeasurable
  have hs' : ∀ i, AEStronglyMeasurable (fun x : Fin n → ℝ => x i) (Q.map v) := fun i => (measurable_pi_apply i).aestronglyMeasurable
  refine ⟨⟨hu, fun i => ?_, fun i j => ?_⟩, ⟨?_⟩⟩
  · rw [← hv.mean i, ← integral_map (f := fun x : Fin n → ℝ => x i) hm (hs i), he, integral_map hv.gaussian.aemeasurable (hs' i)]
  · have h1 := covariance_map_fun (hs i) (hs j) hm
    have h2 := covariance_map_fun (hs' i) (hs' j) hv.gaussian.aemeasurable
    rw [← hv.cov i j]
    exact (h1.symm.trans (by rw [he])).trans h2
  · rw [he]
    exact hv.gaussian.isGaussian_map

section
variable {w : World} {m m' : MId} {pu p : PId} {o : PseudoData} {mz mx d mu : List ℝ} {K Z A : Mat} {r : ℝ}

/-- What the processes of the inducing points and of the data return at the inducing points and at the data. -/
structure Priors (w : World) (m : MId) (pu p : PId) (o : PseudoData) (mz mx d : List ℝ) (K Z : Mat) : Prop where
  mz : MeanCall w m pu o.z mz
  mx : MeanCall w m p o.x mx
  d : ElwiseCall w m p p o.x o.x d
  K : KernelCall w m pu pu o.z o.z K
  Z : KernelCall w m pu p o.z o.x Z

/-- What a fresh object returns. -/
structure Computes (w : World) (m : MId) (pu p : PId) (o : PseudoData) (r : ℝ) (mu : List ℝ) (A : Mat) : Prop where
  elbo : (getElbo w pu p o m {}).2 = some r
  mu : (getMu w pu p o m {}).2 = some mu
  A : (getA w pu p o m {}).2 = some A

/-- A column as a vector. -/
def asVec (k : ℕ) (l : List ℝ) : Fin k → ℝ := fun j => l.getD j 0

/-- The prior of the inducing variables, with their noise. -/
def inducing (o : PseudoData) (mz : List ℝ) (K : Mat) : Normal K.r := ⟨asVec K.r mz, K.sq K.r + o.noiseZ.sq K.r⟩

/-- The approximating distribution: `mu`, and `K_z A⁻¹ K_z`. -/
noncomputable def approximating (o : PseudoData) (mu : List ℝ) (K A : Mat) : Normal K.r :=
  ⟨asVec K.r mu, (K.sq K.r + o.noiseZ.sq K.r) * (A.sq K.r)⁻¹ * (K.sq K.r + o.noiseZ.sq K.r)⟩

/-- What a fresh object returns, in terms of what the processes return. -/
theorem Computes.parts (h : Computes w m pu p o r mu A) (hp : Priors w m pu p o mz mx d K Z) (hv : o.method = .vfe) :
    (K.sq K.r + o.noiseZ.sq K.r).PosDef ∧ (∀ j < Z.c, 0 < o.noiseX.mat.e j j) ∧ mz.length = K.r ∧ mx.length = Z.c ∧ d.length = Z.c ∧ o.y.length = Z.c ∧
    mu.length = K.r ∧ A.r = K.r ∧ A.c = K.r ∧
    r = elboOf .vfe (K.sq K.r + o.noiseZ.sq K.r) (Z.rect K.r) (asVec Z.c d) (fun j => o.noiseX.mat.e j j)
      (asVec Z.c o.y - asVec Z.c mx) ∧
    approximating o mu K A = optimal (K.sq K.r + o.noiseZ.sq K.r) (Z.rect K.r) (diagonal fun j : Fin Z.c => o.noiseX.mat.e j j) (asVec K.r mz)
      (asVec Z.c o.y - asVec Z.c mx) := by
  obtain ⟨h1, h2, h3⟩ := h
  rw [(RightP.empty _ pu p o).get_elbo] at h1
  rw [(RightP.empty _ pu p o).get_mu] at h2
  obtain ⟨t, ht, rfl⟩ := Option.map_eq_some_iff.1 h1
  rw [ht] at h2
  cases h2
  have e3 : (getA w pu p o m {}).2 = some (valA o t.1) := by
    unfold getA Mut.cached
    simp only
    rw [compute_eq, ht]
    show Dict.put (fun _ => none) m ((partG w pu p o m).map (valA o)) m = _
    rw [put_same rfl]
    unfold partY at ht
    obtain ⟨g, hg, ht⟩ := bind_some ht
    obtain ⟨_, _, ht⟩ := bind_some ht
    split at ht
    swap
    · simp at ht
    obtain ⟨_, _, ht⟩ := bind_some ht
    split at ht
    swap
    · simp at ht
    cases ht
    rw [hg]
    rfl
  rw [e3] at h3
  cases h3
  unfold partY partG partK at ht
  rw [callK_iff.2 hp.Z, callK_iff.2 hp.K, callM_iff.2 hp.mx, callM_iff.2 hp.mz] at ht
  simp only [bind, Option.bind_some] at ht
  obtain ⟨g, hg, ht⟩ := bind_some ht
  obtain ⟨⟨Z', K'⟩, hK, hg⟩ := bind_some hg
  obtain ⟨K'', hK, hK'⟩ := bind_some hK
  cases hK'
  unfold Mat.add at hK
  split at hK
  swap
  · simp at hK
  next hs =>
  cases hK
  split at hg
  swap
  · simp at hg
  next hc =>
  obtain ⟨kx, hkx, hg⟩ := bind_some hg
  split at hg
  swap
  · simp at hg
  next hpos =>
  cases hg
  split at ht
  swap
  · simp at ht
  next hl =>
  split at ht
  swap
  · simp at ht
  next hz =>
  cases ht
  obtain ⟨_, ⟨_, hPD⟩, _, _, _⟩ := hc
  unfold kxDiag at hkx
  rw [hv] at hkx
  simp only [callD_iff.2 hp.d, bind, Option.bind_some] at hkx
  split at hkx
  swap
  · simp at hkx
  next hd =>
  cases hkx
  change (K.sq K.r + o.noiseZ.sq K.r).PosDef at hPD
  refine ⟨hPD, fun j hj => ?_, hz, hl.1, hd, hl.2, by simp [valMu], rfl, rfl, ?_, ?_⟩
  · have := hpos ⟨j, hj⟩
    rw [hv] at this
    simpa only [knDiag, add_zero] using this
  · unfold valElbo
    rw [hv]
    rfl
  · rw [optimal_eq hPD (kx := asVec Z.c d)]
    unfold approximating
    congr 1
    · funext i
      simp only [asVec, valMu]
      rw [List.getD_eq_getElem?_getD, List.getElem?_eq_getElem (by simp), Option.getD_some, List.getElem_ofFn, hv]
      rfl
    · congr 2
      unfold valA
      simp only
      rw [hv]
      exact congrArg _ (ofSq_sq _)

/-- **C49.** For VFE: give the inducing variables, with their noise, any distribution that has finite variances and a finite divergence from
their prior, and let the function values at the data follow from them as in the prior. Then the expected log-likelihood of the data less the
divergence is at most the ELBO. It is equal to the ELBO if and only if the distribution is normal with mean `mu` and variance `K_z A⁻¹ K_z`. -/
theorem C49_optimal (h : Computes w m pu p o r mu A) (hp : Priors w m pu p o mz mx d K Z) (hv : o.method = .vfe) (hd : o.noiseX.mat.IsDiag Z.c)
    {Ω Ω' : Type*} [MeasurableSpace Ω] [MeasurableSpace Ω'] {P : Measure Ω} {Q : Measure Ω'} [IsProbabilityMeasure P] {u : Ω → Fin K.r → ℝ}
    {f : Ω → Fin Z.c → ℝ} {v : Ω' → Fin K.r → ℝ} (hu : ∀ i, MemLp (fun ω => u ω i) 2 P) (hq : IsNormal Q v (inducing o mz K))
    (hF : Follows P u f (asVec K.r mz) (asVec Z.c mx) (inducing o mz K).var (Z.rect K.r) (asVec Z.c d)) (hf : klDiv (P.map u) (Q.map v) ≠ ⊤) :
    (∫ ω, (⟨f ω, o.noiseX.mat.sq Z.c⟩ : Normal Z.c).logpdfFull (asVec Z.c o.y) ∂P - (klDiv (P.map u) (Q.map v)).toReal ≤ r) ∧
    (∫ ω, (⟨f ω, o.noiseX.mat.sq Z.c⟩ : Normal Z.c).logpdfFull (asVec Z.c o.y) ∂P - (klDiv (P.map u) (Q.map v)).toReal = r ↔
      IsNormal P u (approximating o mu K A)) := by
  obtain ⟨hK, hn, -, -, -, -, -, -, -, rfl, e⟩ := h.parts hp hv
  have hn' : ∀ j : Fin Z.c, 0 < o.noiseX.mat.e j j := fun j => hn j j.2
  have hN : (diagonal fun j : Fin Z.c => o.noiseX.mat.e j j).PosDef := posDef_diagonal_iff.2 hn'
  have ho := optimal_posDef (Kzx := Z.rect K.r) hK hN (asVec K.r mz) (asVec Z.c o.y - asVec Z.c mx)
  have hw := Normal.isNormal_law ho.posSemidef
  have hD : Describes P u ⟨fun i => ∫ ω, u ω i ∂P, fun i j => cov[fun ω => u ω i, fun ω => u ω j; P]⟩ := ⟨hu, fun _ => rfl, fun _ _ => rfl⟩
  obtain ⟨h1, h2⟩ := hF.bound (y := asVec Z.c o.y) hD hn' hK hq hw hf
  rw [hd.sq, e]
  exact ⟨h1, h2.trans ⟨fun he => hw.of_map hu he, fun hN => hN.map_unique hw⟩⟩

/-- **C49, the bound is achieved.** For every normal there are random vectors to which `C49_optimal` applies; for the approximating distribution,
they achieve the ELBO. -/
theorem C49_achieved (h : Computes w m pu p o r mu A) (hp : Priors w m pu p o mz mx d K Z) (hv : o.method = .vfe) (hd : o.noiseX.mat.IsDiag Z.c)
    (hk : ∀ j, 0 ≤ asVec Z.c d j - ((Z.rect K.r)ᵀ * (inducing o mz K).var⁻¹ * Z.rect K.r) j j) {g : Normal K.r} (hg : g.var.PosDef) :
    ∃ (Ω : Type) (_ : MeasurableSpace Ω) (P : Measure Ω) (Q : Measure Ω) (u v : Ω → Fin K.r → ℝ) (f : Ω → Fin Z.c → ℝ),
      IsNormal P u g ∧ IsNormal Q v (inducing o mz K) ∧ Follows P u f (asVec K.r mz) (asVec Z.c mx) (inducing o mz K).var (Z.rect K.r) (asVec Z.c d) ∧
      klDiv (P.map u) (Q.map v) ≠ ⊤ ∧ (g = approximating o mu K A →
        ∫ ω, (⟨f ω, o.noiseX.mat.sq Z.c⟩ : Normal Z.c).logpdfFull (asVec Z.c o.y) ∂P - (klDiv (P.map u) (Q.map v)).toReal = r) := by
  have hK : (inducing o mz K).var.PosDef := (h.parts hp hv).1
  obtain ⟨P, u, f, hu, hF⟩ := follows_exists hg.posSemidef hk (asVec K.r mz) (asVec Z.c mx)
  obtain ⟨Q, v, _, hq, _⟩ := follows_exists (q := inducing o mz K) hK.posSemidef hk (asVec K.r mz) (asVec Z.c mx)
  have hP := hu.isProbabilityMeasure
  have hf := (C39_kl hu hq hg hK).1
  exact ⟨_, _, P, Q, u, v, f, hu, hq, hF, hf, fun e => (C49_optimal h hp hv hd hu.memLp hq hF hf).2.2 (e ▸ hu)⟩

end

section
variable {ops before : List Op} {m m' : MId} {pu p : PId} {o : PseudoData} {mz mx d mu v : List ℝ} {K Z A B : Mat} {r : ℝ} {zs : List Pt}

/-- What a fresh object keeps. -/
theorem Computes.kept {w : World} (h : Computes w m pu p o r mu A) (hK : KernelCall w m pu pu o.z o.z K) :
    (K.sq K.r + o.noiseZ.sq K.r).PosDef ∧ K.c = K.r ∧
    (compute w pu p o m {}).1.Kz m = some ⟨K.r, K.c, fun i j => K.e i j + o.noiseZ.e i j⟩ ∧ (compute w pu p o m {}).1.A m = some A := by
  obtain ⟨h1, -, h3⟩ := h
  rw [(RightP.empty _ pu p o).get_elbo] at h1
  obtain ⟨t, ht, rfl⟩ := Option.map_eq_some_iff.1 h1
  have e3 : (getA w pu p o m {}).2 = (compute w pu p o m {}).1.A m := by
    unfold getA Mut.cached
    simp only
    rw [compute_eq, ht]
    rfl
  rw [e3] at h3
  rw [h3, compute_eq]
  show _ ∧ _ ∧ Dict.put (fun _ => none) m ((partK w pu p o m).map (·.2)) m = _ ∧ _
  rw [put_same rfl]
  unfold partY at ht
  obtain ⟨g, hg, -⟩ := bind_some ht
  unfold partG at hg
  obtain ⟨⟨Z, K'⟩, hP, hg⟩ := bind_some hg
  rw [hP]
  unfold partK at hP
  obtain ⟨_, _, hP⟩ := bind_some hP
  rw [callK_iff.2 hK] at hP
  simp only [bind, Option.bind_some] at hP
  obtain ⟨K'', hK, hP⟩ := bind_some hP
  cases hP
  unfold Mat.add at hK
  split at hK
  swap
  · simp at hK
  cases hK
  dsimp only at hg
  split at hg
  swap
  · simp at hg
  next hc => exact ⟨hc.2.1.2, hc.2.1.1.symm, rfl, rfl⟩

/-- **C49, the posterior.** If the inducing variables have no noise, then the posterior mean and covariances of the process of the inducing points,
at the inducing points, are those of the approximating distribution. The same holds for FITC and DTC. -/
theorem C49_posterior (g : Gives ops before m (.pseudo pu p o) m') (hi : Attached (runOps before {}) m pu)
    (h : Computes (runOps ops {}) m pu p o r mu A) (hK : KernelCall (runOps ops {}) m pu pu o.z o.z K) (ez : o.z = .num zs)
    (h0 : ∀ i < K.r, ∀ j < K.r, o.noiseZ.e i j = 0) :
    (MeanCall (runOps ops {}) m' pu (.num zs) v → v = mu) ∧
    (KernelCall (runOps ops {}) m' pu pu (.num zs) (.num zs) B → B.r = K.r ∧ B.c = K.r ∧ B.sq K.r = (approximating o mu K A).var) := by
  obtain ⟨hp, hc, hk, ha⟩ := h.kept hK
  have hz : o.noiseZ.sq K.r = 0 := by ext i j; exact h0 i i.2 j j.2
  have hu : IsUnit (K.sq K.r).det := by rw [hz, add_zero] at hp; exact hp.isUnit.map detMonoidHom
  have hs : (K.sq K.r)ᵀ = K.sq K.r := by rw [hz, add_zero] at hp; exact symm_of_posDef hp
  constructor
  · intro hm
    obtain ⟨n, Kz, B, mu', mz, mi, dd, e1, e2, rfl, e4, e5, e6, e7, e8, e9, e10, e11⟩ := C42_used_mean g hi hm
    rw [hk] at e1
    cases e1
    rw [h.mu] at e2
    cases e2
    rw [← ez] at e7 e9
    cases e7.unique e8
    cases e9.unique hK
    change K.tmulVec ((K.sq K.r + o.noiseZ.sq K.r)⁻¹ *ᵥ fun a : Fin K.r => mu.getD a 0 - mz.getD a 0) = some dd at e10
    rw [hz, add_zero] at e10
    unfold Mat.tmulVec at e10
    rw [if_pos rfl] at e10
    cases e10
    unfold zipCol at e11
    split at e11
    swap
    · simp at e11
    next hl =>
    cases e11
    refine List.ext_getElem ?_ fun i h1 h2 => ?_
    · simp only [List.length_zipWith, List.length_map, List.length_range]
      simp only [List.length_map, List.length_range] at hl
      omega
    · simp only [List.getElem_zipWith, List.getElem_map, List.getElem_range]
      have hi : i < K.r := e5 ▸ h2
      have e : ∑ a : Fin K.r, K.e a i * ((K.sq K.r)⁻¹ *ᵥ fun a : Fin K.r => mu.getD a 0 - mz.getD a 0) a = mu.getD i 0 - mz.getD i 0 := by
        have : ∑ a : Fin K.r, K.e a i * ((K.sq K.r)⁻¹ *ᵥ fun a : Fin K.r => mu.getD a 0 - mz.getD a 0) a =
            ((K.sq K.r)ᵀ *ᵥ ((K.sq K.r)⁻¹ *ᵥ fun a : Fin K.r => mu.getD a 0 - mz.getD a 0)) ⟨i, hi⟩ := rfl
        rw [this, hs, mulVec_mulVec, mul_nonsing_inv _ hu, one_mulVec]
      rw [e, List.getD_eq_getElem?_getD, List.getD_eq_getElem?_getD, List.getElem?_eq_getElem h2, List.getElem?_eq_getElem (by omega)]
      simp
  · intro hb
    obtain ⟨n, Kz, A', Kij, B1, C1, Q, R, D, e1, e2, rfl, e4, e5, e6, e7, e8, e9, e10, e11, e12, e13⟩ := C42_used g hi hi hb
    rw [hk] at e1
    cases e1
    rw [ha] at e2
    cases e2
    rw [← ez] at e7 e8 e9
    cases e8.unique hK
    cases e7.unique e8
    cases e9.unique e8
    change Mat.quad (K.sq K.r + o.noiseZ.sq K.r)⁻¹ K K = some Q at e10
    change Mat.quad (A.sq K.r)⁻¹ K K = some R at e11
    rw [hz, add_zero] at e10
    unfold Mat.quad at e10 e11
    rw [if_pos ⟨rfl, rfl⟩] at e10 e11
    cases e10
    cases e11
    unfold Mat.sub at e12
    rw [if_pos ⟨hc.symm, rfl⟩] at e12
    cases e12
    unfold Mat.add at e13
    rw [if_pos ⟨hc.symm, rfl⟩] at e13
    cases e13
    refine ⟨rfl, hc, ?_⟩
    have key : ∀ W : Matrix (Fin K.r) (Fin K.r) ℝ, (Matrix.of fun i j : Fin K.r => ∑ a : Fin K.r, ∑ b : Fin K.r, K.e a i * W a b * K.e b j) =
        (K.sq K.r)ᵀ * W * K.sq K.r := fun W => by
      ext i j
      rw [Matrix.mul_assoc, Matrix.mul_apply, Matrix.of_apply]
      refine Finset.sum_congr rfl fun a _ => ?_
      rw [Matrix.mul_apply, Finset.mul_sum]
      exact Finset.sum_congr rfl fun b _ => by rw [← mul_assoc]; rfl
    show K.sq K.r - (Matrix.of fun i j : Fin K.r => ∑ a : Fin K.r, ∑ b : Fin K.r, K.e a i * (K.sq K.r)⁻¹ a b * K.e b j) +
      (Matrix.of fun i j : Fin K.r => ∑ a : Fin K.r, ∑ b : Fin K.r, K.e a i * (A.sq K.r)⁻¹ a b * K.e b j) = _
    rw [key, key, hs, mul_nonsing_inv _ hu, Matrix.one_mul, sub_self, zero_add]
    unfold approximating
    rw [hz, add_zero]

theorem residual_nonneg {V : Type} [AddCommGroup V] [Module ℝ V] {S : SO V} (hS : S.Pos) {us vs : List V} {N : Mat} (hr : N.r = us.length)
    (hc : N.c = us.length) (hn : (N.sq us.length).PosSemidef) (rK : K.r = us.length) (cZ : Z.c = vs.length)
    (eK : K.sq us.length = gram S us) (eZ : ∀ i : Fin us.length, ∀ j : Fin vs.length, Z.e i j = S.C (us.get i) (vs.get j))
    (ed : ∀ j : Fin vs.length, d.getD j 0 = S.C (vs.get j) (vs.get j)) (hp : (K.sq K.r + N.sq K.r).PosDef) (j : Fin Z.c) :
    0 ≤ asVec Z.c d j - ((Z.rect K.r)ᵀ * (K.sq K.r + N.sq K.r)⁻¹ * Z.rect K.r) j j := by
  obtain ⟨r, c, e⟩ := K
  obtain ⟨r', c', e'⟩ := Z
  change r = _ at rK
  change c' = _ at cZ
  subst rK cZ
  change (Mat.sq _ us.length + N.sq us.length).PosDef at hp
  show 0 ≤ asVec vs.length d j - ((Mat.rect ⟨r', vs.length, e'⟩ us.length)ᵀ * (Mat.sq ⟨us.length, c, e⟩ us.length + N.sq us.length)⁻¹ *
    Mat.rect ⟨r', vs.length, e'⟩ us.length) j j
  have e1 : Mat.rect ⟨r', vs.length, e'⟩ us.length = crossGram S us vs := by ext i j; exact eZ i j
  rw [eK] at hp
  rw [e1, eK]
  have := (residual_posSemidef (xs := vs) hS hr hc hn hp).diag_nonneg (i := j)
  rw [Matrix.sub_apply] at this
  unfold asVec
  rw [ed j]
  exact this

/-- **C49, regular programs.** In regular programs, if the kernel matrix of the inducing points, with their noise, is positive definite, the noise of
the data is diagonal and positive, and all sizes are right: what `C49_optimal` and `C49_achieved` are about exists. -/
theorem C49_regular {G : Dom} (h : Regular G ops) (hu : Attached (runOps ops {}) m pu) (hp : Attached (runOps ops {}) m p) {xs : List Pt}
    (cu : Rows (G pu) zs) (cp : Rows (G p) xs) (ez : o.z = .num zs) (ex : o.x = .num xs) (fit : o.Fit) (hd : o.noiseX.isDiagonal = true)
    (hz : (o.noiseZ.sq zs.length).PosSemidef) (hx : ∀ j < xs.length, 0 < o.noiseX.mat.e j j)
    (hK : ∀ A K, KernelCall (runOps ops {}) m pu pu (.num zs) (.num zs) A → A.add o.noiseZ = some K → (K.sq K.r).PosDef) :
    ∃ r mu A mz mx d K Z, Computes (runOps ops {}) m pu p o r mu A ∧ Priors (runOps ops {}) m pu p o mz mx d K Z ∧
      K.r = zs.length ∧ Z.c = xs.length ∧
      ∀ j, 0 ≤ asVec Z.c d j - ((Z.rect K.r)ᵀ * (inducing o mz K).var⁻¹ * Z.rect K.r) j j := by
  obtain ⟨r, hr⟩ := C41_total h hu hp cu cp ez ex fit hd hz hx hK
  have hr' := hr
  rw [(RightP.empty _ pu p o).get_elbo] at hr'
  obtain ⟨t, ht, -⟩ := Option.map_eq_some_iff.1 hr'
  have hc : Computes (runOps ops {}) m pu p o r (valMu o t) (valA o t.1) := by
    refine ⟨hr, by rw [(RightP.empty _ pu p o).get_mu, ht]; rfl, ?_⟩
    unfold getA Mut.cached
    simp only
    rw [compute_eq, ht]
    show Dict.put (fun _ => none) m ((partG (runOps ops {}) pu p o m).map (valA o)) m = _
    rw [put_same rfl]
    unfold partY at ht
    obtain ⟨g, hg, ht⟩ := bind_some ht
    obtain ⟨_, _, ht⟩ := bind_some ht
    split at ht
    swap
    · simp at ht
    obtain ⟨_, _, ht⟩ := bind_some ht
    split at ht
    swap
    · simp at ht
    cases ht
    rw [hg]
    rfl
  obtain ⟨us, hF, lF⟩ := h.value hu cu
  obtain ⟨vs, hG, lG⟩ := h.value hp cp
  obtain ⟨K, cK, rK, kK⟩ := h.kernel hu hu cu cu
  obtain ⟨Z, cZ, rZ, kZ⟩ := h.kernel hu hp cu cp
  obtain ⟨d, cd, ld⟩ := h.elwise hp hp cp cp rfl
  obtain ⟨mx, cx, lx⟩ := h.mean hp cp
  obtain ⟨mz, cz, lz⟩ := h.mean hu cu
  have eK := h.kernel_eq hu hu cu cu cK hF hF
  have eZ := h.kernel_eq hu hp cu cp cZ hF hG
  have ed := h.elwise_eq hp hp cp cp rfl cd hG hG
  obtain ⟨zr, zc, xr, xc, ly⟩ := fit
  rw [ez] at zr zc
  change _ = zs.length at zr zc
  refine ⟨r, _, _, mz, mx, d, K, Z, hc, ⟨ez ▸ cz, ex ▸ cx, ex ▸ cd, ez ▸ cK, ez ▸ ex ▸ cZ⟩, rK, kZ, ?_⟩
  have hpd := (hc.kept (ez ▸ cK)).1
  refine residual_nonneg (S := (reading ops).S m) (us := us) (vs := vs) (h.pos m) (zr.trans lF.symm) (zc.trans lF.symm) (lF ▸ hz) (rK.trans lF.symm)
    (kZ.trans lG.symm) ?_ ?_ ?_ hpd
  · ext i j
    show K.e i j = _
    rw [eK.e i i.2 j j.2]
    show ((reading ops).S m).C (us.getD i 0) (us.getD j 0) = _
    rw [getD_get i.2, getD_get j.2]
    rfl
  · intro i j
    rw [eZ.e i i.2 j j.2]
    show ((reading ops).S m).C (us.getD i 0) (vs.getD j 0) = _
    rw [getD_get i.2, getD_get j.2]
    rfl
  · intro j
    rw [ed, List.getD_eq_getElem?_getD, List.getElem?_eq_getElem (by simp)]
    simp

end

/-! ## Examples -/

/-- C49 for `brief`, with one inducing point. -/
example : ∃ r mu A mz mx d K Z, Computes (runOps (brief .vfe) {}) 0 0 0 (sketch .vfe coarse) r mu A ∧
    Priors (runOps (brief .vfe) {}) 0 0 0 (sketch .vfe coarse) mz mx d K Z ∧ K.r = 1 ∧ Z.c = 2 ∧
    ∃ (Ω : Type) (_ : MeasurableSpace Ω) (P Q : Measure Ω) (u v : Ω → Fin K.r → ℝ) (f : Ω → Fin Z.c → ℝ),
      IsNormal P u (approximating (sketch .vfe coarse) mu K A) ∧ IsNormal Q v (inducing (sketch .vfe coarse) mz K) ∧
      ∫ ω, (⟨f ω, (sketch .vfe coarse).noiseX.mat.sq Z.c⟩ : Normal Z.c).logpdfFull (asVec Z.c [1, 3]) ∂P - (klDiv (P.map u) (Q.map v)).toReal = r := by
  have hz : (coarse.noise.sq 1).PosSemidef := by
    have : coarse.noise.sq 1 = 0 := rfl
    rw [this]; exact .zero
  obtain ⟨r, mu, A, mz, mx, d, K, Z, h, hp, rK, cZ, hk⟩ := C49_regular (m := 0) (pu := 0) (p := 0) (o := sketch .vfe coarse) (brief_regular .vfe)
    (attached_iff.2 rfl) (attached_iff.2 rfl) (rows_off not_false) (rows_off not_false) rfl rfl ⟨rfl, rfl, rfl, rfl, rfl⟩ rfl hz
    (fun j hj => by
      have hj : j < 2 := hj
      show 0 < (rows (eye 3) [0, 2]).e j j
      interval_cases j <;> simp [rows, eye]) (coarse_posDef rfl)
  refine ⟨r, mu, A, mz, mx, d, K, Z, h, hp, rK, cZ, ?_⟩
  have hd : (sketch .vfe coarse).noiseX.mat.IsDiag Z.c := by
    rw [show Z.c = 2 from cZ]
    intro i hi j hj hij
    show (rows (eye 3) [0, 2]).e i j = 0
    interval_cases i <;> interval_cases j <;> simp_all [rows, eye]
  have hg : (approximating (sketch .vfe coarse) mu K A).var.PosDef := by
    obtain ⟨hK, hn, -, -, -, -, -, -, -, -, e⟩ := h.parts hp rfl
    rw [e]
    exact optimal_posDef hK (posDef_diagonal_iff.2 fun j => hn j j.2) _ _
  obtain ⟨Ω, i, P, Q, u, v, f, h1, h2, -, -, h3⟩ := C49_achieved h hp rfl hd hk hg
  exact ⟨Ω, i, P, Q, u, v, f, h1, h2, h3 rfl⟩

/-- C49 for `brief`, with the inducing points at the data: the posterior, which is measure 1, has the approximating distribution there. -/
example (μ : Method) : ∃ mu K A r B, Computes (runOps (brief μ) {}) 0 0 0 (sketch μ onto) r mu A ∧ K.r = 2 ∧
    MeanCall (runOps (brief μ) {}) 1 0 (.num [[0], [2]]) mu ∧ KernelCall (runOps (brief μ) {}) 1 0 0 (.num [[0], [2]]) (.num [[0], [2]]) B ∧
    B.sq K.r = (approximating (sketch μ onto) mu K A).var := by
  have hz : (onto.noise.sq 2).PosSemidef := by
    have : none2.sq 2 = 0 := rfl
    show (none2.sq 2).PosSemidef
    rw [this]; exact .zero
  obtain ⟨r, mu, A, mz, mx, d, K, Z, h, hp, rK, cZ, -⟩ := C49_regular (m := 0) (pu := 0) (p := 0) (o := sketch μ onto) (brief_regular μ)
    (attached_iff.2 rfl) (attached_iff.2 rfl) (rows_off not_false) (rows_off not_false) rfl rfl ⟨rfl, rfl, rfl, rfl, rfl⟩ rfl hz
    (fun j hj => by
      have hj : j < 2 := hj
      show 0 < (rows (eye 3) [0, 2]).e j j
      interval_cases j <;> simp [rows, eye]) (onto_posDef rfl)
  have g : Gives (brief μ) ((brief μ).take 1) 0 (.pseudo 0 0 (sketch μ onto)) 1 := ⟨⟨(brief μ).drop 2, rfl⟩, (by decide : 0 < 1), rfl⟩
  obtain ⟨v, hv, -⟩ := (brief_regular μ).mean (m := 1) (p := 0) (xs := [[0], [2]]) (attached_iff.2 rfl) (rows_off not_false)
  obtain ⟨B, hB, -⟩ := (brief_regular μ).kernel (m := 1) (p := 0) (q := 0) (xs := [[0], [2]]) (ys := [[0], [2]]) (attached_iff.2 rfl) (attached_iff.2 rfl)
    (rows_off not_false) (rows_off not_false)
  obtain ⟨h1, h2⟩ := C49_posterior (v := v) (B := B) g (attached_iff.2 rfl) h hp.K rfl fun _ _ _ _ => rfl
  cases h1 hv
  exact ⟨mu, K, A, r, B, h, rK, hv, hB, (h2 hB).2.2⟩

end Stheno
