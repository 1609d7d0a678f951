import Verif.Props.Variational
import Verif.Props.Conditional
import Verif.Surrogate

/-!
# C50: sparse posteriors are exact posteriors in an approximate model

`C50`: the posterior given pseudo-observations is the conditional distribution in a model in which the data are predicted from the inducing variables.
-/

namespace Stheno

open Matrix MeasureTheory ProbabilityTheory

section
variable {ops before : List Op} {m m' : MId} {pu p i j : PId} {o : PseudoData} {mz mx d : List ℝ} {K Z : Mat} {x x' : Input}

/-- The noise of the data in the approximate model. FITC adds the variance that the inducing variables do not explain. -/
noncomputable def surrogateNoise (o : PseudoData) (mz d : List ℝ) (K Z : Mat) (j : Fin Z.c) : ℝ :=
  match o.method with
  | .fitc => o.noiseX.mat.e j j + (asVec Z.c d j - ((Z.rect K.r)ᵀ * (inducing o mz K).var⁻¹ * Z.rect K.r) j j)
  | _ => o.noiseX.mat.e j j

theorem surrogateNoise_eq : surrogateNoise o mz d K Z =
    sparseNoise o.method (inducing o mz K).var (Z.rect K.r) (asVec Z.c d) fun j => o.noiseX.mat.e j j := by
  funext j
  unfold surrogateNoise sparseNoise
  cases o.method <;> simp

/-- Noise and data have the right sizes. -/
structure Shapes (o : PseudoData) (d : List ℝ) (K Z : Mat) : Prop where
  Kc : K.c = K.r
  Zr : Z.r = K.r
  zr : o.noiseZ.r = K.r
  zc : o.noiseZ.c = K.r
  xr : o.noiseX.mat.r = Z.c
  xc : o.noiseX.mat.c = Z.c
  d : d.length = Z.c
  diag : o.noiseX.isDiagonal = true

/-- The computation succeeds if what it needs can be computed. -/
theorem Priors.ingredients (hp : Priors (runOps ops {}) m pu p o mz mx d K Z) (hs : Shapes o d K Z) (hK : (inducing o mz K).var.PosDef)
    (hn : ∀ j, 0 < surrogateNoise o mz d K Z j) :
    ∃ kzz kzx kxx kx, kernelAt (runOps ops {}) m pu pu = some kzz ∧ kernelAt (runOps ops {}) m pu p = some kzx ∧
      kernelAt (runOps ops {}) m p p = some kxx ∧
      RunG (meanAt (runOps ops {})) (kernelAt (runOps ops {})) kzz kzx kxx o
        ⟨K.r, Z.c, (inducing o mz K).var, Z.rect K.r, kx, fun j => o.noiseX.mat.e j j⟩ ∧
      sparseNoise o.method (inducing o mz K).var (Z.rect K.r) kx (fun j => o.noiseX.mat.e j j) = surrogateNoise o mz d K Z := by
  obtain ⟨kzz, n1, h1, hA⟩ := hp.K
  obtain ⟨kzx, n2, h2, hZ⟩ := hp.Z
  obtain ⟨kxx, n3, h3, hd⟩ := hp.d
  let n := max n1 (max n2 n3)
  have hA := (ev_le (lm := meanAt (runOps ops {})) (lk := kernelAt (runOps ops {})) (by omega : n1 ≤ n)).K _ _ _ _ hA
  have hZ := (ev_le (lm := meanAt (runOps ops {})) (lk := kernelAt (runOps ops {})) (by omega : n2 ≤ n)).K _ _ _ _ hZ
  have hd := (ev_le (lm := meanAt (runOps ops {})) (lk := kernelAt (runOps ops {})) (by omega : n3 ≤ n)).D _ _ _ _ hd
  obtain ⟨kx, hkx, e⟩ : ∃ kx : Fin Z.c → ℝ, stepKx (ev (meanAt (runOps ops {})) (kernelAt (runOps ops {})) n) kxx o Z.c = some kx ∧
      sparseNoise o.method (inducing o mz K).var (Z.rect K.r) kx (fun j => o.noiseX.mat.e j j) = surrogateNoise o mz d K Z := by
    rw [surrogateNoise_eq]
    unfold stepKx
    cases hm : o.method with
    | dtc => exact ⟨0, rfl, rfl⟩
    | vfe =>
      refine ⟨asVec Z.c d, ?_, rfl⟩
      show (_ >>= _) = _
      rw [hd]
      exact if_pos hs.d
    | fitc =>
      refine ⟨asVec Z.c d, ?_, rfl⟩
      show (_ >>= _) = _
      rw [hd]
      exact if_pos hs.d
  refine ⟨kzz, kzx, kxx, kx, h1, h2, h3, ⟨n, ?_⟩, e⟩
  have hadd : K.add o.noiseZ = some ⟨K.r, K.c, fun i j => K.e i j + o.noiseZ.e i j⟩ := by
    unfold Mat.add
    rw [if_pos ⟨hs.zr.symm, hs.Kc.trans hs.zc.symm⟩]
  unfold stepIngredients
  rw [stepKz_of hA hadd hs.Kc.symm hK]
  show (_ >>= _) = _
  rw [hZ]
  show (if Z.r = K.r ∧ o.noiseX.mat.r = Z.c ∧ o.noiseX.mat.c = Z.c then _ else _) = _
  rw [if_pos ⟨hs.Zr, hs.xr, hs.xc⟩, hkx]
  refine if_pos fun j => ?_
  have := hn j
  rw [← e, ← knDiag_eq _ _ _ _ hK] at this
  exact this

/-- Calls of kernels of sparse posteriors succeed if what they need can be computed. -/
theorem Gives.kernel_sparse (g : Gives ops before m (.pseudo pu p o) m') (hi : Attached (runOps before {}) m i) (hj : Attached (runOps before {}) m j)
    (hx : x.IsAtom) (hx' : x'.IsAtom) (hp : Priors (runOps ops {}) m pu p o mz mx d K Z) (hs : Shapes o d K Z)
    (hK : (inducing o mz K).var.PosDef) (hn : ∀ j, 0 < surrogateNoise o mz d K Z j) {A B C : Mat} (hA : KernelCall (runOps ops {}) m i j x x' A)
    (hB : KernelCall (runOps ops {}) m pu i o.z x B) (hC : KernelCall (runOps ops {}) m pu j o.z x' C) (h1 : B.r = K.r) (h2 : C.r = K.r)
    (h3 : A.r = B.c) (h4 : A.c = C.c) :
    KernelCall (runOps ops {}) m' i j x x' ⟨A.r, A.c, fun s t => A.e s t -
        ∑ a : Fin K.r, ∑ b : Fin K.r, B.e a s * (inducing o mz K).var⁻¹ a b * C.e b t +
        ∑ a : Fin K.r, ∑ b : Fin K.r, B.e a s *
          (sparseA o.method (inducing o mz K).var (Z.rect K.r) (asVec Z.c d) fun j => o.noiseX.mat.e j j)⁻¹ a b * C.e b t⟩ := by
  obtain ⟨kzz, kzx, kxx, kx, k1, k2, k3, hG, e⟩ := hp.ingredients hs hK hn
  obtain ⟨n0, hG⟩ := hG.le
  obtain ⟨kij, n1, hkij, hA⟩ := hA
  obtain ⟨kzi, n3, hkzi, hB⟩ := hB
  obtain ⟨kzj, n4, hkzj, hC⟩ := hC
  let n := max (max n1 n0) (max n3 n4)
  have hA := (ev_le (lm := meanAt (runOps ops {})) (lk := kernelAt (runOps ops {})) (by omega : n1 ≤ n)).K _ _ _ _ hA
  have hG := hG n (by omega)
  have hB := (ev_le (lm := meanAt (runOps ops {})) (lk := kernelAt (runOps ops {})) (by omega : n3 ≤ n)).K _ _ _ _ hB
  have hC := (ev_le (lm := meanAt (runOps ops {})) (lk := kernelAt (runOps ops {})) (by omega : n4 ≤ n)).K _ _ _ _ hC
  refine ⟨.pseudo kij kzi kzj kzz kzx kxx o, n + 1, ?_, ?_⟩
  · rw [g.kernelAt_eq hi hj]
    simp only [obsKernel, hkij, hkzi, hkzj, k1, k2, k3, hs.diag, if_true]
    rfl
  · have e' : (ev (meanAt (runOps ops {})) (kernelAt (runOps ops {})) (n + 1)).K (.pseudo kij kzi kzj kzz kzx kxx o) x x' =
        stepKAtom (meanAt (runOps ops {})) (kernelAt (runOps ops {})) (ev (meanAt (runOps ops {})) (kernelAt (runOps ops {})) n)
          (.pseudo kij kzi kzj kzz kzx kxx o) x x' := by
      cases x <;> cases x' <;> first | rfl | exact hx.elim | exact hx'.elim
    rw [e']
    have eA : Ingredients.A o ⟨K.r, Z.c, (inducing o mz K).var, Z.rect K.r, kx, fun j => o.noiseX.mat.e j j⟩ =
        sparseA o.method (inducing o mz K).var (Z.rect K.r) (asVec Z.c d) fun j => o.noiseX.mat.e j j := by
      unfold Ingredients.A
      rw [subspaceA_eq _ _ _ _ hK]
      unfold sparseA
      rw [e, surrogateNoise_eq]
    simp only [stepKAtom, hA, hG, hB, hC, Option.bind_eq_bind, Option.bind_some, Mat.quad, h1, h2, and_self, if_true, Mat.sub, Mat.add, if_pos (And.intro h3 h4), eA]

/-- Calls of means of sparse posteriors succeed if what they need can be computed. -/
theorem Gives.mean_sparse (g : Gives ops before m (.pseudo pu p o) m') (hi : Attached (runOps before {}) m i)
    (hx : x.IsAtom) (hp : Priors (runOps ops {}) m pu p o mz mx d K Z) (hs : Shapes o d K Z)
    (hK : (inducing o mz K).var.PosDef) (hn : ∀ j, 0 < surrogateNoise o mz d K Z j) (lz : mz.length = K.r) (lx : mx.length = Z.c)
    (ly : o.y.length = Z.c) {v : List ℝ} {B : Mat} (hv : MeanCall (runOps ops {}) m i x v)
    (hB : KernelCall (runOps ops {}) m pu i o.z x B) (h1 : B.r = K.r) (h4 : v.length = B.c) :
    MeanCall (runOps ops {}) m' i x (List.zipWith (· + ·) v ((List.range B.c).map fun s => ∑ a : Fin K.r, B.e a s *
      sparseWeights o.method (inducing o mz K).var (Z.rect K.r) (asVec Z.c d) (fun j => o.noiseX.mat.e j j) (asVec Z.c o.y - asVec Z.c mx) a)) := by
  obtain ⟨kzz, kzx, kxx, kx, k1, k2, k3, hG, e⟩ := hp.ingredients hs hK hn
  obtain ⟨n0, hG⟩ := hG.le
  obtain ⟨mi, n1, hmi, hv⟩ := hv
  obtain ⟨kzi, n3, hkzi, hB⟩ := hB
  obtain ⟨fz, n4, hfz, hmz⟩ := hp.mz
  obtain ⟨fx, n5, hfx, hmx⟩ := hp.mx
  let n := max (max n1 n0) (max (max n3 n4) n5)
  have hv := (ev_le (lm := meanAt (runOps ops {})) (lk := kernelAt (runOps ops {})) (by omega : n1 ≤ n)).M _ _ _ hv
  have hG := hG n (by omega)
  have hB := (ev_le (lm := meanAt (runOps ops {})) (lk := kernelAt (runOps ops {})) (by omega : n3 ≤ n)).K _ _ _ _ hB
  have hmz := (ev_le (lm := meanAt (runOps ops {})) (lk := kernelAt (runOps ops {})) (by omega : n4 ≤ n)).M _ _ _ hmz
  have hmx := (ev_le (lm := meanAt (runOps ops {})) (lk := kernelAt (runOps ops {})) (by omega : n5 ≤ n)).M _ _ _ hmx
  refine ⟨.pseudo mi fz fx kzi kzz kzx kxx o, n + 1, ?_, ?_⟩
  · rw [g.meanAt_eq hi]
    simp only [obsMean, hmi, hkzi, hfz, hfx, k1, k2, k3, hs.diag, if_true]
    rfl
  · show stepM (meanAt (runOps ops {})) (ev (meanAt (runOps ops {})) (kernelAt (runOps ops {})) n) (.pseudo mi fz fx kzi kzz kzx kxx o) x = _
    have eW : ((inducing o mz K).var⁻¹ *ᵥ fun a : Fin K.r => mz.getD a 0 + muShift o.method (inducing o mz K).var (Z.rect K.r) kx
        (fun j => o.noiseX.mat.e j j) (fun j : Fin Z.c => o.y.getD j 0 - mx.getD j 0) a - mz.getD a 0) =
        sparseWeights o.method (inducing o mz K).var (Z.rect K.r) (asVec Z.c d) (fun j => o.noiseX.mat.e j j) (asVec Z.c o.y - asVec Z.c mx) := by
      have : (fun a : Fin K.r => mz.getD a 0 + muShift o.method (inducing o mz K).var (Z.rect K.r) kx
        (fun j => o.noiseX.mat.e j j) (fun j : Fin Z.c => o.y.getD j 0 - mx.getD j 0) a - mz.getD a 0) =
          muShift o.method (inducing o mz K).var (Z.rect K.r) kx (fun j => o.noiseX.mat.e j j) (asVec Z.c o.y - asVec Z.c mx) := by
        funext a
        rw [add_sub_cancel_left]
        rfl
      rw [this, muShift_eq _ _ _ _ _ hK]
      unfold sparseWeights sparseA
      rw [e, surrogateNoise_eq]
    cases x with
    | tup => exact hx.elim
    | _ =>
      simp only [stepM, hv, hG, hmz, hmx, hB, Option.bind_eq_bind, Option.bind_some, lz, lx, ly, and_self, if_true, Mat.tmulVec, if_pos h1, eW]
      unfold zipCol
      rw [if_pos (by simp [h4])]

end

/-! ## Variances -/

section
variable {ops before : List Op} {m m' : MId} {pu p i : PId} {o : PseudoData} {x : Input}

/-- **C21, sparse posteriors.** In every program, the variance of a process at an input after a pseudo-observation is at most the variance before. -/
theorem C21_sparse (g : Gives ops before m (.pseudo pu p o) m') (hi : Attached (runOps before {}) m i) (hx : x.IsAtom) {A' : Mat}
    (h : KernelCall (runOps ops {}) m' i i x x A') :
    ∃ A, KernelCall (runOps ops {}) m i i x x A ∧ A'.r = A.r ∧ A'.c = A.c ∧ ∀ s, A'.e s s ≤ A.e s s := by
  obtain ⟨k, n, hk, hP⟩ := h
  rw [g.kernelAt_eq hi hi] at hk
  unfold obsKernel at hk
  obtain ⟨kij, h1, hk⟩ := bind_some hk
  obtain ⟨kzi, h2, hk⟩ := bind_some hk
  obtain ⟨kzj, h3, hk⟩ := bind_some hk
  rw [h2] at h3
  cases h3
  obtain ⟨kzx, h4, hk⟩ := bind_some hk
  obtain ⟨kzz, h5, hk⟩ := bind_some hk
  split at hk
  swap
  · simp at hk
  obtain ⟨kxx, h6, hk⟩ := bind_some hk
  cases hk
  obtain _ | n := n
  · simp [ev, Ev.bot] at hP
  have e' : (ev (meanAt (runOps ops {})) (kernelAt (runOps ops {})) (n + 1)).K (.pseudo kij kzi kzi kzz kzx kxx o) x x =
      stepKAtom (meanAt (runOps ops {})) (kernelAt (runOps ops {})) (ev (meanAt (runOps ops {})) (kernelAt (runOps ops {})) n)
        (.pseudo kij kzi kzi kzz kzx kxx o) x x := by
    cases x <;> first | rfl | exact hx.elim
  rw [e'] at hP
  obtain ⟨A, hA, hP⟩ := bind_some hP
  obtain ⟨G, hG, hP⟩ := bind_some hP
  obtain ⟨B, hB, hP⟩ := bind_some hP
  obtain ⟨C, hC, hP⟩ := bind_some hP
  rw [hB] at hC
  cases hC
  obtain ⟨Q, hQ, hP⟩ := bind_some hP
  obtain ⟨D, hD, hP⟩ := bind_some hP
  obtain ⟨R, hR, hP⟩ := bind_some hP
  have hKz : G.Kz.PosDef ∧ ∀ j, 0 < knDiag o.method G.Kz G.Kzx G.kx G.noise j := by
    unfold stepIngredients at hG
    obtain ⟨K, hK, hG⟩ := bind_some hG
    obtain ⟨Z, hZ, hG⟩ := bind_some hG
    split at hG
    swap
    · simp at hG
    obtain ⟨kx, hkx, hG⟩ := bind_some hG
    split at hG
    swap
    · simp at hG
    next hpos =>
    cases hG
    refine ⟨?_, hpos⟩
    unfold stepKz at hK
    obtain ⟨A0, hA0, hK⟩ := bind_some hK
    obtain ⟨K0, hK0, hK⟩ := bind_some hK
    split at hK
    swap
    · simp at hK
    next hc =>
    cases hK
    exact hc.2
  obtain ⟨hpd, hn⟩ := hKz
  rw [knDiag_eq _ _ _ _ hpd] at hn
  have hN : (diagonal (sparseNoise o.method G.Kz G.Kzx G.kx G.noise)).PosDef := posDef_diagonal_iff.2 hn
  have hd : (G.Kz⁻¹ - (G.A o)⁻¹).PosSemidef := by
    unfold Ingredients.A
    rw [subspaceA_eq _ _ _ _ hpd, sparseA, inv_sub_inv hpd hN]
    have hM : (nystrom G.Kz G.Kzx + diagonal (sparseNoise o.method G.Kz G.Kzx G.kx G.noise)).PosDef := by
      refine PosDef.posSemidef_add ?_ hN
      have := conj_posSemidef hpd.inv.posSemidef G.Kzxᵀ
      rwa [transpose_transpose] at this
    have := conj_posSemidef hM.inv.posSemidef (G.Kz⁻¹ * G.Kzx)
    rwa [transpose_mul, transpose_nonsing_inv, symm_of_posDef hpd] at this
  unfold Mat.quad at hQ hR
  split at hQ
  swap
  · simp at hQ
  next hc =>
  rw [if_pos hc] at hR
  cases hQ
  cases hR
  unfold Mat.sub at hD
  split at hD
  swap
  · simp at hD
  next hc' =>
  cases hD
  unfold Mat.add at hP
  rw [if_pos hc'] at hP
  cases hP
  refine ⟨A, ⟨kij, n, h1, hA⟩, rfl, rfl, fun s => ?_⟩
  have := hd.dotProduct_mulVec_nonneg fun a => B.e a s
  rw [sub_mulVec, dotProduct_sub] at this
  have hq : ∀ M : Matrix (Fin G.n) (Fin G.n) ℝ, ∑ a : Fin G.n, ∑ b : Fin G.n, B.e a s * M a b * B.e b s =
      star (fun a : Fin G.n => B.e a s) ⬝ᵥ M *ᵥ fun a : Fin G.n => B.e a s := fun M => by
    simp only [star_trivial, dotProduct, mulVec, Finset.mul_sum]
    exact Finset.sum_congr rfl fun a _ => Finset.sum_congr rfl fun b _ => by rw [mul_assoc]
  show A.e s s - _ + _ ≤ A.e s s
  dsimp only
  rw [hq, hq]
  linarith

end

/-! ## The approximate model -/

section
variable {Ω : Type*} [MeasurableSpace Ω] {P : Measure Ω} {before : List Op} {m m' : MId} {pu p : PId} {o : PseudoData} {mz mx d : List ℝ} {K Z : Mat}
  {T : PId → Input → Prop} {size : PId → Input → ℕ} {Φ : PId × Input × ℕ → Ω → ℝ} {N : Ω → Fin K.r → ℝ} {ε : Ω → Fin Z.c → ℝ}

/-- The data of the approximate model: their prediction from the inducing variables (with the noise `N` of the inducing variables), and noise `ε`. -/
noncomputable def surrogate (Φ : PId × Input × ℕ → Ω → ℝ) (pu : PId) (o : PseudoData) (mz mx : List ℝ) (K Z : Mat) (N : Ω → Fin K.r → ℝ)
    (ε : Ω → Fin Z.c → ℝ) (ω : Ω) : Fin Z.c → ℝ :=
  asVec Z.c mx + ((Z.rect K.r)ᵀ * (inducing o mz K).var⁻¹) *ᵥ (observed Φ pu o.z N ω - asVec K.r mz) + ε ω

/-- **C50.** Let `Φ` be a Gaussian process with the means and covariances of a measure. Let the data be predicted from the inducing variables, with
independent noise: the noise of the observations and, for FITC, the variance that the inducing variables do not explain. Let `ops y` be programs that
condition on the pseudo-observations with data `y`. Then, for any finite number of values, calling the mean and the kernel of the posterior succeeds and
gives the conditional distribution, the conditional expectations and the conditional covariances given the data. -/
theorem C50_conditional [IsFiniteMeasure P] (h : Models P (runOps before {}) m T size Φ) (hz : T pu o.z)
    (hp : Priors (runOps before {}) m pu p o mz mx d K Z) (hs : Shapes o d K Z) (lx : mx.length = Z.c)
    (hK : (inducing o mz K).var.PosDef) (hn : ∀ j, 0 < surrogateNoise o mz d K Z j) (hN : IsNoise P Φ (o.noiseZ.sq K.r) N)
    (hE : IsNormal P ε ⟨0, diagonal (surrogateNoise o mz d K Z)⟩) (mE : Measurable ε) (iE : IndepFun (fun ω => (fun t => Φ t ω, N ω)) ε P)
    {ops : (Fin Z.c → ℝ) → List Op} (g : ∀ y, Gives (ops y) before m (.pseudo pu p { o with y := List.ofFn y }) m') {k : ℕ}
    {e : Fin k → PId × Input × ℕ}
    (he : ∀ a, T (e a).1 (e a).2.1 ∧ (e a).2.2 < size (e a).1 (e a).2.1 ∧ (e a).2.1.IsAtom ∧ Attached (runOps before {}) m (e a).1) :
    ∃ post : (Fin Z.c → ℝ) → Normal k,
      (∀ y a, ∃ v, MeanCall (runOps (ops y) {}) m' (e a).1 (e a).2.1 v ∧ v[(e a).2.2]? = some ((post y).mean a)) ∧
      (∀ y a b, ∃ A, KernelCall (runOps (ops y) {}) m' (e a).1 (e b).1 (e a).2.1 (e b).2.1 A ∧ (e a).2.2 < A.r ∧ (e b).2.2 < A.c ∧
        A.e (e a).2.2 (e b).2.2 = (post y).var a b) ∧
      (∀ᵐ y ∂P.map (surrogate Φ pu o mz mx K Z N ε), condDistrib (fun ω => WithLp.toLp 2 fun a => Φ (e a) ω) (surrogate Φ pu o mz mx K Z N ε) P y =
        (post y).law) ∧
      (∀ a, P[Φ (e a) | MeasurableSpace.comap (surrogate Φ pu o mz mx K Z N ε) inferInstance] =ᵐ[P]
        fun ω => (post (surrogate Φ pu o mz mx K Z N ε ω)).mean a) ∧
      ∀ a b, P[fun ω => (Φ (e a) ω - (post (surrogate Φ pu o mz mx K Z N ε ω)).mean a) *
          (Φ (e b) ω - (post (surrogate Φ pu o mz mx K Z N ε ω)).mean b) |
        MeasurableSpace.comap (surrogate Φ pu o mz mx K Z N ε) inferInstance] =ᵐ[P] fun ω => (post (surrogate Φ pu o mz mx K Z N ε ω)).var a b := by
  obtain ⟨mz', cz, lz, ez⟩ := h.mean pu o.z hz
  cases cz.unique hp.mz
  obtain ⟨K', cK, rK, -, eK⟩ := h.cov pu o.z pu o.z hz hz
  cases cK.unique hp.K
  have hj := jointly_observed h.gaussian h.measurable hN pu o.z e
  set W := (Z.rect K.r)ᵀ * (inducing o mz K).var⁻¹ with hW
  set C : Matrix (Fin k) (Fin K.r) ℝ := Matrix.of fun a b => cov[Φ (e a), Φ (pu, o.z, b); P] with hC
  have e0 : (⟨fun a : Fin K.r => ∫ ω, Φ (pu, o.z, a) ω ∂P, (Matrix.of fun a b : Fin K.r => cov[Φ (pu, o.z, a), Φ (pu, o.z, b); P]) + o.noiseZ.sq K.r⟩ :
      Normal K.r) = inducing o mz K := by
    unfold inducing
    congr 1
    · funext a
      rw [ez a (rK ▸ a.2)]
      rfl
    · congr 1
      ext a b
      rw [Matrix.of_apply, eK a (rK ▸ a.2) b (rK ▸ b.2)]
      rfl
  rw [e0] at hj
  have hi : IndepFun (fun ω => ((fun a => Φ (e a) ω), observed Φ pu o.z N ω)) ε P := by
    refine iE.comp (φ := fun q : (PId × Input × ℕ → ℝ) × (Fin K.r → ℝ) => ((fun a => q.1 (e a)), fun a : Fin K.r => q.1 (pu, o.z, a) + q.2 a)) ?_ measurable_id
    fun_prop
  have H := hj.through hE mE hi W (asVec Z.c mx - W *ᵥ asVec K.r mz)
  have eS : (fun ω => W *ᵥ observed Φ pu o.z N ω + (asVec Z.c mx - W *ᵥ asVec K.r mz) + ε ω) = surrogate Φ pu o mz mx K Z N ε := by
    funext ω
    unfold surrogate
    rw [mulVec_sub, ← hW]
    abel
  rw [eS] at H
  have hpd : (W * (inducing o mz K).var * Wᵀ + diagonal (surrogateNoise o mz d K Z)).PosDef :=
    PosDef.posSemidef_add (conj_posSemidef hK.posSemidef W) (posDef_diagonal_iff.2 hn)
  have hu : IsUnit (W * (inducing o mz K).var * Wᵀ + diagonal (surrogateNoise o mz d K Z)).det := hpd.isUnit.map detMonoidHom
  have hgiv := fun y => given_sparse (g := ⟨fun a => ∫ ω, Φ (e a) ω ∂P, fun a b => cov[Φ (e a), Φ (e b); P]⟩) (mz := asVec K.r mz) (mx := asVec Z.c mx)
    (μ := o.method) (kx := asVec Z.c d) (noise := fun j => o.noiseX.mat.e j j) hK (by rw [← surrogateNoise_eq]; exact hn) C y
  rw [← surrogateNoise_eq] at hgiv
  have hsy : ∀ y : Fin Z.c → ℝ, asVec Z.c (List.ofFn y) = y := fun y => by
    funext j
    simp [asVec]
  have hext : ∀ y, ∃ after, ops y = before ++ after := fun y => by
    obtain ⟨after, h⟩ := (g y).split
    exact ⟨_, h⟩
  have hP : ∀ y, Priors (runOps (ops y) {}) m pu p { o with y := List.ofFn y } mz mx d K Z := fun y => by
    obtain ⟨after, h⟩ := hext y
    rw [h]
    exact ⟨C05_mean_call hp.mz, C05_mean_call hp.mx, C05_elwise_call hp.d, C05_kernel_call hp.K, C05_kernel_call hp.Z⟩
  have hS : ∀ y : Fin Z.c → ℝ, Shapes { o with y := List.ofFn y } d K Z := fun y => ⟨hs.Kc, hs.Zr, hs.zr, hs.zc, hs.xr, hs.xc, hs.d, hs.diag⟩
  refine ⟨_, fun y a => ?_, fun y a b => ?_, H.condDistrib hu, H.condExp hu, H.condCov hu⟩
  · obtain ⟨h1, h2, h3, h4⟩ := he a
    obtain ⟨v, hv, lv, ev⟩ := h.mean _ _ h1
    obtain ⟨B, hB, rB, cB, eB⟩ := h.cov pu o.z _ _ hz h1
    obtain ⟨after, hop⟩ := hext y
    have key := (g y).mean_sparse h4 h3 (hP y) (hS y) hK hn (lz.trans rK.symm) lx (List.length_ofFn) (hop ▸ C05_mean_call hv) (hop ▸ C05_kernel_call hB)
      (rB.trans rK.symm) (lv.trans cB.symm)
    refine ⟨_, key, ?_⟩
    rw [List.getElem?_zipWith, List.getElem?_map, List.getElem?_range (cB ▸ h2), List.getElem?_eq_getElem (by omega)]
    simp only [Option.map_some]
    rw [show v[(e a).2.2]'(by omega) = v.getD (e a).2.2 0 by simp [List.getD_eq_getElem?_getD, List.getElem?_eq_getElem (by omega : (e a).2.2 < v.length)]]
    rw [← ev _ h2]
    erw [hgiv y]
    rw [hsy]
    congr 2
    refine Finset.sum_congr rfl fun b _ => ?_
    rw [← eB b (rK ▸ b.2) _ h2, covariance_comm]
    rfl
  · obtain ⟨h1, h2, h3, h4⟩ := he a
    obtain ⟨k1, k2, k3, k4⟩ := he b
    obtain ⟨A, hA, rA, cA, eA⟩ := h.cov _ _ _ _ h1 k1
    obtain ⟨B, hB, rB, cB, eB⟩ := h.cov pu o.z _ _ hz h1
    obtain ⟨D, hD, rD, cD, eD⟩ := h.cov pu o.z _ _ hz k1
    obtain ⟨after, hop⟩ := hext y
    have key := (g y).kernel_sparse h4 k4 h3 k3 (hP y) (hS y) hK hn (hop ▸ C05_kernel_call hA) (hop ▸ C05_kernel_call hB) (hop ▸ C05_kernel_call hD)
      (rB.trans rK.symm) (rD.trans rK.symm) (rA.trans cB.symm) (cA.trans cD.symm)
    refine ⟨_, key, rA.symm ▸ h2, cA.symm ▸ k2, ?_⟩
    erw [hgiv y]
    have hq : ∀ M : Matrix (Fin K.r) (Fin K.r) ℝ, (C * M * Cᵀ) a b = ∑ s : Fin K.r, ∑ t : Fin K.r, B.e s (e a).2.2 * M s t * D.e t (e b).2.2 := fun M => by
      rw [mul_apply, Finset.sum_comm]
      refine Finset.sum_congr rfl fun t _ => ?_
      rw [mul_apply, Finset.sum_mul]
      refine Finset.sum_congr rfl fun s _ => ?_
      rw [← eB s (rK ▸ s.2) _ h2, ← eD t (rK ▸ t.2) _ k2, covariance_comm, covariance_comm (X := Φ (pu, o.z, t))]
      rfl
    show _ = cov[Φ (e a), Φ (e b); P] - (C * (inducing o mz K).var⁻¹ * Cᵀ) a b +
      (C * (sparseA o.method (inducing o mz K).var (Z.rect K.r) (asVec Z.c d) fun j => o.noiseX.mat.e j j)⁻¹ * Cᵀ) a b
    rw [hq, hq, eA _ h2 _ k2]
    rfl

end

/-! ## Approximate models exist -/

section
variable {Ω Ω' : Type*} [MeasurableSpace Ω] [MeasurableSpace Ω'] {P : Measure Ω} {Q : Measure Ω'} {f : Ω' → Ω}

theorem gaussian_comp {E : Type*} [NormedAddCommGroup E] [NormedSpace ℝ E] [MeasurableSpace E] [BorelSpace E] {X : Ω → E}
    (hf : MeasurePreserving f Q P) (hX : HasGaussianLaw X P) : HasGaussianLaw (fun ω => X (f ω)) Q := by
  refine ⟨?_⟩
  have : Q.map (fun ω => X (f ω)) = P.map X := by
    rw [← hf.map_eq] at hX ⊢
    exact (AEMeasurable.map_map_of_aemeasurable hX.aemeasurable hf.measurable.aemeasurable).symm
  rw [this]
  exact hX.isGaussian_map

/-- A model on a bigger probability space. -/
theorem Models.comp {w : World} {m : MId} {T : PId → Input → Prop} {size : PId → Input → ℕ} {Φ : PId × Input × ℕ → Ω → ℝ}
    (h : Models P w m T size Φ) (hf : MeasurePreserving f Q P) : Models Q w m T size fun t ω => Φ t (f ω) := by
  have hs : ∀ t, AEStronglyMeasurable (Φ t) (Q.map f) := fun t => (h.measurable t).aestronglyMeasurable
  refine ⟨⟨fun I => gaussian_comp (X := fun ω => I.restrict fun t => Φ t ω) hf (h.gaussian.hasGaussianLaw I)⟩, fun t => (h.measurable t).comp hf.measurable, fun p x hT => ?_,
    fun p x q y hT hT' => ?_⟩
  · obtain ⟨v, hv, lv, ev⟩ := h.mean p x hT
    refine ⟨v, hv, lv, fun i hi => ?_⟩
    rw [← ev i hi, ← hf.map_eq, integral_map hf.measurable.aemeasurable (hs _)]
  · obtain ⟨A, hA, rA, cA, eA⟩ := h.cov p x q y hT hT'
    refine ⟨A, hA, rA, cA, fun i hi j hj => ?_⟩
    rw [← eA i hi j hj, ← hf.map_eq]
    exact (covariance_map_fun (hs _) (hs _) hf.measurable.aemeasurable).symm

theorem IsNoise.comp {n : ℕ} {Φ : PId × Input × ℕ → Ω → ℝ} {noise : Matrix (Fin n) (Fin n) ℝ} {N : Ω → Fin n → ℝ} (hN : IsNoise P Φ noise N)
    (hm : ∀ t, Measurable (Φ t)) (hf : MeasurePreserving f Q P) : IsNoise Q (fun t ω => Φ t (f ω)) noise fun ω => N (f ω) :=
  ⟨hN.normal.comp hf, hN.measurable.comp hf.measurable, by
    have iP := hN.normal.isProbabilityMeasure
    have iQ := (hN.normal.comp hf).isProbabilityMeasure
    have hm' : Measurable fun ω t => Φ t ω := measurable_pi_lambda _ hm
    refine (indepFun_iff_map_prod_eq_prod_map_map (hm'.comp hf.measurable).aemeasurable (hN.measurable.comp hf.measurable).aemeasurable).2 ?_
    have := hN.indep
    rw [indepFun_iff_map_prod_eq_prod_map_map hm'.aemeasurable hN.measurable.aemeasurable] at this
    rw [← hf.map_eq, Measure.map_map (hm'.prodMk hN.measurable) hf.measurable, Measure.map_map hm' hf.measurable,
      Measure.map_map hN.measurable hf.measurable] at this
    exact this⟩

end

/-- **C50, existence.** For a regular program, pseudo-observations with positive definite `K_z` and positive diagonal noise, and any finite number of
processes and inputs, there is a model as in `C50_conditional`. -/
theorem C50_exists {G : Dom} {ops : List Op} {m : MId} {pu p : PId} {o : PseudoData} {zs xs : List Pt} (h : Regular G ops)
    (hu : Attached (runOps ops {}) m pu) (hp : Attached (runOps ops {}) m p) (cu : Rows (G pu) zs) (cp : Rows (G p) xs) (ez : o.z = .num zs)
    (ex : o.x = .num xs) (fit : o.Fit) (hd : o.noiseX.isDiagonal = true) (hz : (o.noiseZ.sq zs.length).PosSemidef)
    (hx : ∀ j < xs.length, 0 < o.noiseX.mat.e j j)
    (hK : ∀ A K, KernelCall (runOps ops {}) m pu pu (.num zs) (.num zs) A → A.add o.noiseZ = some K → (K.sq K.r).PosDef)
    (l : List (PId × List Pt)) (hl : ∀ e ∈ l, Attached (runOps ops {}) m e.1 ∧ Rows (G e.1) e.2) :
    ∃ mz mx d K Z, Priors (runOps ops {}) m pu p o mz mx d K Z ∧ Shapes o d K Z ∧ K.r = zs.length ∧ Z.c = xs.length ∧ mx.length = Z.c ∧
      (inducing o mz K).var.PosDef ∧ (∀ j, 0 < surrogateNoise o mz d K Z j) ∧
      ∃ (Ω : Type) (_ : MeasurableSpace Ω) (P : Measure Ω) (Φ : PId × Input × ℕ → Ω → ℝ) (N : Ω → Fin K.r → ℝ) (ε : Ω → Fin Z.c → ℝ),
        IsProbabilityMeasure P ∧
        Models P (runOps ops {}) m (fun q x => ∃ ys, x = .num ys ∧ (q, ys) ∈ (pu, zs) :: l) (fun _ x => numElements x) Φ ∧
        IsNoise P Φ (o.noiseZ.sq K.r) N ∧ IsNormal P ε ⟨0, diagonal (surrogateNoise o mz d K Z)⟩ ∧ Measurable ε ∧
        IndepFun (fun ω => (fun t => Φ t ω, N ω)) ε P := by
  obtain ⟨r, mu, A, mz, mx, d, K, Z, hc, hP, rK, cZ, hk⟩ := C49_regular h hu hp cu cp ez ex fit hd hz hx hK
  obtain ⟨hpd, cK, -⟩ := hc.kept hP.K
  obtain ⟨Z', hZ', rZ', -⟩ := h.kernel hu hp cu cp
  cases (ez ▸ ex ▸ hP.Z).unique hZ'
  obtain ⟨d', hd', ld'⟩ := h.elwise hp hp cp cp rfl
  cases (ex ▸ hP.d).unique hd'
  obtain ⟨mx', hx', lx'⟩ := h.mean hp cp
  cases (ex ▸ hP.mx).unique hx'
  have nz : numElements o.z = K.r := by rw [ez]; exact rK.symm
  have nx : numElements o.x = Z.c := by rw [ex]; exact cZ.symm
  have hn : ∀ j, 0 < surrogateNoise o mz d K Z j := fun j => by
    have h1 := hx j (cZ ▸ j.2)
    unfold surrogateNoise
    cases o.method
    · exact h1
    · exact add_pos_of_pos_of_nonneg h1 (hk j)
    · exact h1
  obtain ⟨k, P, Φ, N, hM, hN⟩ := C17_exists (m := m) h ((pu, zs) :: l) (fun e he => by
    rcases List.mem_cons.1 he with rfl | he
    · exact ⟨hu, cu⟩
    · exact hl e he) (n := K.r) (noise := o.noiseZ.sq K.r) (by rw [rK]; exact hz)
  have iP := hM.gaussian.isProbabilityMeasure
  have hD : (diagonal (surrogateNoise o mz d K Z)).PosSemidef := (posDef_diagonal_iff.2 hn).posSemidef
  have hL := Normal.isNormal_law (g := (⟨0, diagonal (surrogateNoise o mz d K Z)⟩ : Normal Z.c)) hD
  have iQ := hL.isProbabilityMeasure
  have f1 : MeasurePreserving Prod.fst (P.prod (⟨0, diagonal (surrogateNoise o mz d K Z)⟩ : Normal Z.c).law) P := measurePreserving_fst
  refine ⟨mz, mx, d, K, Z, hP, ⟨cK, rZ'.trans rK.symm, fit.zr.trans nz, fit.zc.trans nz, fit.xr.trans nx, fit.xc.trans nx, ld'.trans cZ.symm, hd⟩, rK, cZ,
    lx'.trans cZ.symm, hpd, hn, _, _, P.prod (⟨0, diagonal (surrogateNoise o mz d K Z)⟩ : Normal Z.c).law, fun t ω => Φ t ω.1, fun ω => N ω.1,
    (fun x : EuclideanSpace ℝ (Fin Z.c) => x.ofLp) ∘ Prod.snd, inferInstance, hM.comp f1, hN.comp hM.measurable f1, hL.comp measurePreserving_snd, ?_, ?_⟩
  · refine Measurable.comp ?_ measurable_snd
    fun_prop
  · exact indepFun_prod (X := fun ω => (fun t => Φ t ω, N ω)) (Y := fun x : EuclideanSpace ℝ (Fin Z.c) => x.ofLp)
      ((measurable_pi_lambda _ hM.measurable).prodMk hN.measurable) (by fun_prop)

/-- C21 for `brief`: whatever the method, the variance after the pseudo-observation is at most that before. -/
example (μ : Method) (xs : List Pt) : ∃ A A', KernelCall (runOps (brief μ) {}) 0 0 0 (.num xs) (.num xs) A ∧
    KernelCall (runOps (brief μ) {}) 1 0 0 (.num xs) (.num xs) A' ∧ A'.r = xs.length ∧ ∀ s, A'.e s s ≤ A.e s s := by
  have g : Gives (brief μ) ((brief μ).take 1) 0 (.pseudo 0 0 (sketch μ onto)) 1 := ⟨⟨(brief μ).drop 2, rfl⟩, (by decide : 0 < 1), rfl⟩
  obtain ⟨A', hA', rA', -⟩ := (brief_regular μ).kernel (m := 1) (p := 0) (q := 0) (xs := xs) (ys := xs) (attached_iff.2 rfl) (attached_iff.2 rfl)
    (rows_off not_false) (rows_off not_false)
  obtain ⟨A, hA, -, -, h⟩ := C21_sparse (x := .num xs) g (attached_iff.2 rfl) trivial hA'
  exact ⟨A, A', hA, hA', rA', h⟩

/-- `brief`, with one inducing point, any method and any data: there is an approximate model, and the conditional distribution of the process at another
point is given by the posterior. -/
example (μ : Method) (x : Pt) : ∃ (mz mx : List ℝ) (K Z : Mat) (_ : Z.c = 2) (Ω : Type) (_ : MeasurableSpace Ω) (P : Measure Ω) (_ : IsFiniteMeasure P)
    (Φ : PId × Input × ℕ → Ω → ℝ) (N : Ω → Fin K.r → ℝ) (ε : Ω → Fin Z.c → ℝ) (post : (Fin Z.c → ℝ) → Normal 1),
    (∀ y, ∃ v, MeanCall (runOps (brief μ ++ [.condition 0 (.pseudo 0 0 { sketch μ coarse with y := List.ofFn y })]) {}) 3 0 (.num [x]) v ∧
      v[0]? = some ((post y).mean 0)) ∧
    ∀ᵐ y ∂P.map (surrogate Φ 0 (sketch μ coarse) mz mx K Z N ε),
      condDistrib (fun ω => WithLp.toLp 2 fun _ : Fin 1 => Φ (0, .num [x], 0) ω) (surrogate Φ 0 (sketch μ coarse) mz mx K Z N ε) P y = (post y).law := by
  have hz : (coarse.noise.sq 1).PosSemidef := by
    have : coarse.noise.sq 1 = 0 := rfl
    rw [this]; exact .zero
  obtain ⟨mz, mx, d, K, Z, hP, hs, rK, cZ, lx, hK, hn, Ω, i, P, Φ, N, ε, hpr, hM, hN, hE, mE, iE⟩ := C50_exists (m := 0) (pu := 0) (p := 0)
    (o := sketch μ coarse) (brief_regular μ) (attached_iff.2 rfl) (attached_iff.2 rfl) (rows_off not_false) (rows_off not_false) rfl rfl
    ⟨rfl, rfl, rfl, rfl, rfl⟩ rfl hz (fun j hj => by
      have hj : j < 2 := hj
      show 0 < (rows (eye 3) [0, 2]).e j j
      interval_cases j <;> simp [rows, eye]) (coarse_posDef rfl) [((0 : PId), [x])] (fun e he => by
      cases List.mem_singleton.1 he
      exact ⟨attached_iff.2 rfl, rows_off (C := fun _ => False) not_false⟩)
  obtain ⟨post, h1, -, h3, -⟩ := C50_conditional (m' := 3) hM ⟨_, rfl, List.mem_cons_self⟩ hP hs lx hK hn hN hE mE iE
    (ops := fun y => brief μ ++ [.condition 0 (.pseudo 0 0 { sketch μ coarse with y := List.ofFn y })])
    (fun y => ⟨⟨[], rfl⟩, (by decide : 0 < 3), rfl⟩) (e := fun _ : Fin 1 => (0, .num [x], 0))
    (fun a => ⟨⟨_, rfl, by simp⟩, Nat.one_pos, trivial, attached_iff.2 rfl⟩)
  exact ⟨mz, mx, K, Z, cZ, Ω, i, P, inferInstance, Φ, N, ε, post, fun y => h1 y 0, h3⟩

end Stheno
