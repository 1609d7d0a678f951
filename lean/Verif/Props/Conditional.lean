import Verif.Conditional
import Verif.Post
import Verif.Props.Calls
import Verif.Props.Condition

/-!
# C17: Posteriors are Gaussian conditionals
-/

namespace Stheno

open Matrix MeasureTheory ProbabilityTheory

section
variable {m m' : MId} {p q i j : PId} {x x' z : Input} {noise : Mat}

variable {ops before : List Op} {y : List ℝ}

/-- Calls of kernels of posteriors succeed if what they need can be computed. -/
theorem Gives.kernel_call_of (g : Gives ops before m (.exact p z noise y) m') (hz : numElements z ≠ 0)
    (hi : Attached (runOps before {}) m i) (hj : Attached (runOps before {}) m j) (hx : x.IsAtom) (hx' : x'.IsAtom) {A K B C : Mat}
    (hA : KernelCall (runOps ops {}) m i j x x' A) (hK : ObsMat (runOps ops {}) m p z noise K) (hp : (K.sq K.r).PosDef)
    (hB : KernelCall (runOps ops {}) m p i z x B) (hC : KernelCall (runOps ops {}) m p j z x' C) (h1 : B.r = K.r) (h2 : C.r = K.r)
    (h3 : A.r = B.c) (h4 : A.c = C.c) : KernelCall (runOps ops {}) m' i j x x' ⟨A.r, A.c, fun s t => A.e s t -
        ∑ a : Fin K.r, ∑ b : Fin K.r, B.e a s * (K.sq K.r)⁻¹ a b * C.e b t⟩ := by
  obtain ⟨kij, n1, hkij, hA⟩ := hA
  obtain ⟨Kz, ⟨kzz, n2, hkzz, hKz⟩, hadd, hsq⟩ := hK
  obtain ⟨kzi, n3, hkzi, hB⟩ := hB
  obtain ⟨kzj, n4, hkzj, hC⟩ := hC
  let n := max (max n1 n2) (max n3 n4)
  have hA := (ev_le (lm := meanAt (runOps ops {})) (lk := kernelAt (runOps ops {})) (by omega : n1 ≤ n)).K _ _ _ _ hA
  have hKz := (ev_le (lm := meanAt (runOps ops {})) (lk := kernelAt (runOps ops {})) (by omega : n2 ≤ n)).K _ _ _ _ hKz
  have hB := (ev_le (lm := meanAt (runOps ops {})) (lk := kernelAt (runOps ops {})) (by omega : n3 ≤ n)).K _ _ _ _ hB
  have hC := (ev_le (lm := meanAt (runOps ops {})) (lk := kernelAt (runOps ops {})) (by omega : n4 ≤ n)).K _ _ _ _ hC
  refine ⟨.post kij kzi kzj z kzz noise, n + 1, ?_, ?_⟩
  · rw [g.kernelAt_eq hi hj]
    simp only [obsKernel, hz, if_false, hkij, hkzi, hkzj, hkzz]
    rfl
  · have e : (ev (meanAt (runOps ops {})) (kernelAt (runOps ops {})) (n + 1)).K (.post kij kzi kzj z kzz noise) x x' =
        stepKAtom (meanAt (runOps ops {})) (kernelAt (runOps ops {})) (ev (meanAt (runOps ops {})) (kernelAt (runOps ops {})) n)
          (.post kij kzi kzj z kzz noise) x x' := by
      cases x <;> cases x' <;> first | rfl | exact hx.elim | exact hx'.elim
    rw [e]
    simp only [stepKAtom, stepKz, hA, hKz, hB, hC, Option.bind_eq_bind, Option.bind_some, hadd, if_pos (And.intro hsq hp), Mat.quad,
      if_pos (And.intro h1 h2), Option.pure_def, Mat.sub, if_pos (And.intro h3 h4)]

/-- Calls of means of posteriors succeed if what they need can be computed. -/
theorem Gives.mean_call_of (g : Gives ops before m (.exact p z noise y) m') (hz : numElements z ≠ 0)
    (hi : Attached (runOps before {}) m i) (hx : x.IsAtom) {v u : List ℝ} {K B : Mat}
    (hv : MeanCall (runOps ops {}) m i x v) (hK : ObsMat (runOps ops {}) m p z noise K) (hp : (K.sq K.r).PosDef)
    (hu : MeanCall (runOps ops {}) m p z u) (hB : KernelCall (runOps ops {}) m p i z x B)
    (h1 : u.length = K.r) (h2 : y.length = K.r) (h3 : B.r = K.r) (h4 : v.length = B.c) :
    MeanCall (runOps ops {}) m' i x (List.zipWith (· + ·) v ((List.range B.c).map fun s => ∑ a : Fin K.r, B.e a s *
          ((K.sq K.r)⁻¹ *ᵥ fun a : Fin K.r => y.getD a 0 - u.getD a 0) a)) := by
  obtain ⟨mi, n1, hmi, hv⟩ := hv
  obtain ⟨Kz, ⟨kzz, n2, hkzz, hKz⟩, hadd, hsq⟩ := hK
  obtain ⟨mz, n3, hmz, hu⟩ := hu
  obtain ⟨kzi, n4, hkzi, hB⟩ := hB
  let n := max (max n1 n2) (max n3 n4)
  have hv := (ev_le (lm := meanAt (runOps ops {})) (lk := kernelAt (runOps ops {})) (by omega : n1 ≤ n)).M _ _ _ hv
  have hKz := (ev_le (lm := meanAt (runOps ops {})) (lk := kernelAt (runOps ops {})) (by omega : n2 ≤ n)).K _ _ _ _ hKz
  have hu := (ev_le (lm := meanAt (runOps ops {})) (lk := kernelAt (runOps ops {})) (by omega : n3 ≤ n)).M _ _ _ hu
  have hB := (ev_le (lm := meanAt (runOps ops {})) (lk := kernelAt (runOps ops {})) (by omega : n4 ≤ n)).K _ _ _ _ hB
  refine ⟨.post mi mz kzi z kzz noise y, n + 1, ?_, ?_⟩
  · rw [g.meanAt_eq hi]
    simp only [obsMean, hz, if_false, hmi, hmz, hkzi, hkzz]
    rfl
  · show stepM (meanAt (runOps ops {})) (ev (meanAt (runOps ops {})) (kernelAt (runOps ops {})) n) (.post mi mz kzi z kzz noise y) x = _
    cases x with
    | tup => exact hx.elim
    | _ =>
      simp only [stepM, stepKz, hv, hKz, hu, hB, Option.bind_eq_bind, Option.bind_some, hadd, if_pos (And.intro hsq hp), Option.pure_def,
        if_pos (And.intro h1 h2), Mat.tmulVec, if_pos h3, zipCol, List.length_map, List.length_range, if_pos h4]

end

/-! ## Gaussian processes with the means and covariances of a measure -/

variable {Ω : Type*} [MeasurableSpace Ω] {P : Measure Ω}

/-- `Φ` is a Gaussian process with the means and covariances that the measure `m` gives for the processes and inputs in `T`. The random
variable `Φ (p, x, i)` is entry `i` of process `p` at input `x`. -/
structure Models (P : Measure Ω) (w : World) (m : MId) (T : PId → Input → Prop) (size : PId → Input → ℕ) (Φ : PId × Input × ℕ → Ω → ℝ) : Prop where
  gaussian : IsGaussianProcess Φ P
  measurable : ∀ t, Measurable (Φ t)
  mean : ∀ p x, T p x → ∃ v, MeanCall w m p x v ∧ v.length = size p x ∧ ∀ i < size p x, ∫ ω, Φ (p, x, i) ω ∂P = v.getD i 0
  cov : ∀ p x q y, T p x → T q y → ∃ A, KernelCall w m p q x y A ∧ A.r = size p x ∧ A.c = size q y ∧
    ∀ i < size p x, ∀ j < size q y, cov[Φ (p, x, i), Φ (q, y, j); P] = A.e i j

/-- The observed random vector: the values of `p` at `z`, with noise. -/
def observed {n : ℕ} (Φ : PId × Input × ℕ → Ω → ℝ) (p : PId) (z : Input) (N : Ω → Fin n → ℝ) (ω : Ω) (a : Fin n) : ℝ :=
  Φ (p, z, a) ω + N ω a

/-- Noise with the given covariance matrix, independent of the process. -/
structure IsNoise {n : ℕ} (P : Measure Ω) (Φ : PId × Input × ℕ → Ω → ℝ) (noise : Matrix (Fin n) (Fin n) ℝ) (N : Ω → Fin n → ℝ) : Prop where
  normal : IsNormal P N ⟨0, noise⟩
  measurable : Measurable N
  indep : IndepFun (fun ω t => Φ t ω) N P

/-- Any finite number of values of a Gaussian process is a Gaussian vector. -/
theorem process_vector {τ ι : Type*} [Fintype ι] {Φ : τ → Ω → ℝ} (h : IsGaussianProcess Φ P) (t : ι → τ) :
    HasGaussianLaw (fun ω i => Φ (t i) ω) P := by
  classical
  let L : ((Finset.univ.image t) → ℝ) →ₗ[ℝ] ι → ℝ :=
    { toFun x i := x ⟨t i, by simp⟩
      map_add' x y := by ext; simp
      map_smul' m x := by ext; simp }
  exact (h.hasGaussianLaw _).map (LinearMap.toContinuousLinearMap L)

section
variable {n k : ℕ} {Φ : PId × Input × ℕ → Ω → ℝ} {noise : Matrix (Fin n) (Fin n) ℝ} {N : Ω → Fin n → ℝ}

/-- Values of the process and the observed vector are jointly Gaussian. -/
theorem jointly_observed (hG : IsGaussianProcess Φ P) (hm : ∀ t, Measurable (Φ t)) (hN : IsNoise P Φ noise N) (p : PId) (z : Input)
    (e : Fin k → PId × Input × ℕ) :
    Jointly P (fun ω a => Φ (e a) ω) (observed Φ p z N) ⟨fun a => ∫ ω, Φ (e a) ω ∂P, fun a b => cov[Φ (e a), Φ (e b); P]⟩
      ⟨fun a => ∫ ω, Φ (p, z, a) ω ∂P, (Matrix.of fun a b : Fin n => cov[Φ (p, z, a), Φ (p, z, b); P]) + noise⟩
      (Matrix.of fun a b => cov[Φ (e a), Φ (p, z, b); P]) := by
  have hp := hG.isProbabilityMeasure
  have h2 : ∀ t, MemLp (Φ t) 2 P := fun t => (hG.hasGaussianLaw_eval t).memLp_two
  have hi : ∀ t, Integrable (Φ t) P := fun t => (h2 t).integrable (by norm_num)
  have hNi : ∀ a, Integrable (fun ω => N ω a) P := fun a => (hN.normal.memLp a).integrable (by norm_num)
  have hc : ∀ t a, cov[Φ t, fun ω => N ω a; P] = 0 := fun t a =>
    IndepFun.covariance_eq_zero (hN.indep.comp (measurable_pi_apply t) (measurable_pi_apply a)) (h2 t) (hN.normal.memLp a)
  have hc' : ∀ t a, cov[fun ω => N ω a, Φ t; P] = 0 := fun t a => by rw [covariance_comm, hc]
  have hv := process_vector hG (Sum.elim e fun a : Fin n => (p, z, (a : ℕ)))
  have hj : IndepFun (fun ω i => Φ (Sum.elim e (fun a : Fin n => (p, z, (a : ℕ))) i) ω) N P :=
    hN.indep.comp (φ := fun f i => f (Sum.elim e (fun a : Fin n => (p, z, (a : ℕ))) i)) (measurable_pi_lambda _ fun i => measurable_pi_apply _)
      measurable_id
  have hg := hj.hasGaussianLaw hv hN.normal.gaussian
  let L : ((Fin k ⊕ Fin n → ℝ) × (Fin n → ℝ)) →ₗ[ℝ] (Fin k → ℝ) × (Fin n → ℝ) :=
    { toFun x := (fun a => x.1 (.inl a), fun b => x.1 (.inr b) + x.2 b)
      map_add' x y := by ext <;> simp; ring
      map_smul' m x := by ext <;> simp; ring }
  refine ⟨hg.map (LinearMap.toContinuousLinearMap L), measurable_pi_lambda _ fun a => hm _, ?_, fun a => rfl, fun b => ?_, fun a b => rfl,
    fun a b => ?_, fun a b => ?_⟩
  · exact measurable_pi_lambda _ fun a => (hm _).add ((measurable_pi_apply a).comp hN.measurable)
  · show ∫ ω, Φ (p, z, b) ω + N ω b ∂P = _
    rw [integral_add (hi _) (hNi b), hN.normal.mean]
    simp
  · show cov[fun ω => Φ (p, z, a) ω + N ω a, fun ω => Φ (p, z, b) ω + N ω b; P] = _
    have hs : ∀ b : Fin n, MemLp (fun ω => Φ (p, z, b) ω + N ω b) 2 P := fun b => (h2 _).add (hN.normal.memLp b)
    have al : ∀ {U V W : Ω → ℝ}, MemLp U 2 P → MemLp V 2 P → MemLp W 2 P → cov[fun ω => U ω + V ω, W; P] = cov[U, W; P] + cov[V, W; P] :=
      fun hU hV hW => covariance_add_left hU hV hW
    have ar : ∀ {U V W : Ω → ℝ}, MemLp U 2 P → MemLp V 2 P → MemLp W 2 P → cov[U, fun ω => V ω + W ω; P] = cov[U, V; P] + cov[U, W; P] :=
      fun hU hV hW => covariance_add_right hU hV hW
    rw [al (h2 _) (hN.normal.memLp a) (hs b), ar (h2 _) (h2 _) (hN.normal.memLp b),
      ar (hN.normal.memLp a) (h2 _) (hN.normal.memLp b), hN.normal.cov]
    show cov[Φ (p, z, a), Φ (p, z, b); P] + cov[Φ (p, z, a), fun ω => N ω b; P] + (cov[fun ω => N ω a, Φ (p, z, b); P] + noise a b) = _
    rw [hc, hc', add_zero, zero_add]
    rfl
  · show cov[Φ (e a), fun ω => Φ (p, z, b) ω + N ω b; P] = _
    have ar : ∀ {U V W : Ω → ℝ}, MemLp U 2 P → MemLp V 2 P → MemLp W 2 P → cov[U, fun ω => V ω + W ω; P] = cov[U, V; P] + cov[U, W; P] :=
      fun hU hV hW => covariance_add_right hU hV hW
    rw [ar (h2 _) (h2 _) (hN.normal.memLp b)]
    show cov[Φ (e a), Φ (p, z, b); P] + cov[Φ (e a), fun ω => N ω b; P] = _
    rw [hc, add_zero]
    rfl

end

section
variable {before : List Op} {m m' : MId} {p : PId} {z : Input} {T : PId → Input → Prop} {size : PId → Input → ℕ}
  {Φ : PId × Input × ℕ → Ω → ℝ} {noise : Mat}

/-- The covariances of the observed vector. -/
noncomputable def obsCov (P : Measure Ω) (Φ : PId × Input × ℕ → Ω → ℝ) (p : PId) (z : Input) (noise : Mat) (n : ℕ) : Matrix (Fin n) (Fin n) ℝ :=
  (Matrix.of fun a b : Fin n => cov[Φ (p, z, a), Φ (p, z, b); P]) + noise.sq n

/-- The observation covariance matrix has these covariances. -/
theorem Models.obsMat (h : Models P (runOps before {}) m T size Φ) (hT : T p z) (hr : noise.r = size p z) (hc : noise.c = size p z) :
    ∃ e : ℕ → ℕ → ℝ, ObsMat (runOps before {}) m p z noise ⟨size p z, size p z, e⟩ ∧
      (⟨size p z, size p z, e⟩ : Mat).sq (size p z) = obsCov P Φ p z noise (size p z) := by
  obtain ⟨⟨r, c, e⟩, hA, h1, h2, h3⟩ := h.cov p z p z hT hT
  dsimp only at h1 h2 h3
  subst h1 h2
  refine ⟨fun i j => e i j + noise.e i j, ⟨_, hA, ?_, rfl⟩, ?_⟩
  · rw [Mat.add, if_pos ⟨hr.symm, hc.symm⟩]
  · ext a b
    show e a b + noise.e a b = cov[Φ (p, z, a), Φ (p, z, b); P] + noise.e a b
    rw [h3 a a.2 b b.2]

/-- The mean of the posterior. -/
theorem Models.mean_call (h : Models P (runOps before {}) m T size Φ) {ops : List Op} {y : Fin (size p z) → ℝ}
    (g : Gives ops before m (.exact p z noise (List.ofFn y)) m') (hz : numElements z ≠ 0) (hT : T p z) (hr : noise.r = size p z)
    (hc : noise.c = size p z) (hp : (obsCov P Φ p z noise (size p z)).PosDef) {i : PId} {x : Input} (hi : Attached (runOps before {}) m i)
    (hx : x.IsAtom) (hTi : T i x) : ∃ v, MeanCall (runOps ops {}) m' i x v ∧ v.length = size i x ∧ ∀ s < size i x, v.getD s 0 =
      ∫ ω, Φ (i, x, s) ω ∂P + ∑ a, cov[Φ (i, x, s), Φ (p, z, (a : Fin (size p z))); P] *
        ((obsCov P Φ p z noise (size p z))⁻¹ *ᵥ fun a => y a - ∫ ω, Φ (p, z, a) ω ∂P) a := by
  obtain ⟨e, ⟨Kz, hKz, hadd, _⟩, hK⟩ := h.obsMat hT hr hc
  obtain ⟨after, eo⟩ := g.split
  have ext1 : ∀ {q x v}, MeanCall (runOps before {}) m q x v → MeanCall (runOps ops {}) m q x v := fun hv => eo ▸ C05_mean_call hv
  have ext2 : ∀ {q q' x x' v}, KernelCall (runOps before {}) m q q' x x' v → KernelCall (runOps ops {}) m q q' x x' v := fun hv =>
    eo ▸ C05_kernel_call hv
  obtain ⟨v, hv, lv, ev⟩ := h.mean i x hTi
  obtain ⟨u, hu, lu, eu⟩ := h.mean p z hT
  obtain ⟨⟨r, c, B⟩, hB, h1, h2, eB⟩ := h.cov p z i x hT hTi
  dsimp only at h1 h2 eB
  subst h1 h2
  have key := g.mean_call_of hz hi hx (ext1 hv) ⟨Kz, ext2 hKz, hadd, rfl⟩ (by rw [hK]; exact hp) (ext1 hu) (ext2 hB) lu (List.length_ofFn) rfl lv
  refine ⟨_, key, by simp [lv], fun s hs => ?_⟩
  rw [List.getD_eq_getElem?_getD, List.getElem?_zipWith, List.getElem?_map, List.getElem?_range hs]
  rw [show v[s]? = some (v.getD s 0) by rw [List.getD_eq_getElem?_getD, List.getElem?_eq_getElem (by omega)]; rfl]
  simp only [Option.map_some, Option.getD_some]
  rw [ev s hs, hK]
  refine congrArg _ (Finset.sum_congr rfl fun a _ => ?_)
  rw [← eB a a.2 s hs, covariance_comm]
  congr 3
  funext b
  rw [eu b b.2]
  simp

/-- The kernel of the posterior. -/
theorem Models.kernel_call (h : Models P (runOps before {}) m T size Φ) {ops : List Op} {y : List ℝ}
    (g : Gives ops before m (.exact p z noise y) m') (hz : numElements z ≠ 0) (hT : T p z) (hr : noise.r = size p z)
    (hc : noise.c = size p z) (hp : (obsCov P Φ p z noise (size p z)).PosDef) {i j : PId} {x x' : Input} (hi : Attached (runOps before {}) m i)
    (hj : Attached (runOps before {}) m j) (hx : x.IsAtom) (hx' : x'.IsAtom) (hTi : T i x) (hTj : T j x') :
    ∃ A, KernelCall (runOps ops {}) m' i j x x' A ∧ A.r = size i x ∧ A.c = size j x' ∧ ∀ s < size i x, ∀ t < size j x', A.e s t =
      cov[Φ (i, x, s), Φ (j, x', t); P] - ∑ a, ∑ b, cov[Φ (i, x, s), Φ (p, z, (a : Fin (size p z))); P] *
        (obsCov P Φ p z noise (size p z))⁻¹ a b * cov[Φ (j, x', t), Φ (p, z, (b : Fin (size p z))); P] := by
  obtain ⟨e, ⟨Kz, hKz, hadd, _⟩, hK⟩ := h.obsMat hT hr hc
  obtain ⟨after, eo⟩ := g.split
  have ext2 : ∀ {q q' x x' v}, KernelCall (runOps before {}) m q q' x x' v → KernelCall (runOps ops {}) m q q' x x' v := fun hv =>
    eo ▸ C05_kernel_call hv
  obtain ⟨⟨r1, c1, A⟩, hA, h1, h2, eA⟩ := h.cov i x j x' hTi hTj
  dsimp only at h1 h2 eA
  subst h1 h2
  obtain ⟨⟨r, c, B⟩, hB, h1, h2, eB⟩ := h.cov p z i x hT hTi
  dsimp only at h1 h2 eB
  subst h1 h2
  obtain ⟨⟨r, c, C⟩, hC, h1, h2, eC⟩ := h.cov p z j x' hT hTj
  dsimp only at h1 h2 eC
  subst h1 h2
  have key := g.kernel_call_of hz hi hj hx hx' (ext2 hA) ⟨Kz, ext2 hKz, hadd, rfl⟩ (by rw [hK]; exact hp) (ext2 hB) (ext2 hC) rfl rfl rfl rfl
  refine ⟨_, key, rfl, rfl, fun s hs t ht => ?_⟩
  show A s t - ∑ a : Fin (size p z), ∑ b : Fin (size p z), B a s * ((⟨size p z, size p z, e⟩ : Mat).sq (size p z))⁻¹ a b * C b t = _
  rw [eA s hs t ht, hK]
  refine congrArg _ (Finset.sum_congr rfl fun a _ => Finset.sum_congr rfl fun b _ => ?_)
  rw [← eB a a.2 s hs, ← eC b b.2 t ht, covariance_comm, covariance_comm (X := Φ (p, z, b))]

/-- **C17.** Let `Φ` be a Gaussian process with the means and covariances of a measure, observed with independent Gaussian noise, such that
the covariance matrix of the observations is positive definite. Let `ops y` be programs that condition on `y`. Then, for any finite number of
values, calling the mean and the kernel of the posterior succeeds and gives the conditional distribution, the conditional expectations and the
conditional covariances given the observations. -/
theorem C17_conditional [IsFiniteMeasure P] (h : Models P (runOps before {}) m T size Φ) {N : Ω → Fin (size p z) → ℝ}
    (hN : IsNoise P Φ (noise.sq (size p z)) N) (hz : numElements z ≠ 0) (hT : T p z) (hr : noise.r = size p z) (hc : noise.c = size p z)
    {K : Mat} (hK : ObsMat (runOps before {}) m p z noise K) (hp : (K.sq K.r).PosDef) {ops : (Fin (size p z) → ℝ) → List Op}
    (g : ∀ y, Gives (ops y) before m (.exact p z noise (List.ofFn y)) m') {k : ℕ} {e : Fin k → PId × Input × ℕ}
    (he : ∀ a, T (e a).1 (e a).2.1 ∧ (e a).2.2 < size (e a).1 (e a).2.1 ∧ (e a).2.1.IsAtom ∧ Attached (runOps before {}) m (e a).1) :
    ∃ post : (Fin (size p z) → ℝ) → Normal k,
      (∀ y a, ∃ v, MeanCall (runOps (ops y) {}) m' (e a).1 (e a).2.1 v ∧ v[(e a).2.2]? = some ((post y).mean a)) ∧
      (∀ y a b, ∃ A, KernelCall (runOps (ops y) {}) m' (e a).1 (e b).1 (e a).2.1 (e b).2.1 A ∧ (e a).2.2 < A.r ∧ (e b).2.2 < A.c ∧
        A.e (e a).2.2 (e b).2.2 = (post y).var a b) ∧
      (∀ y, (post y).var.PosSemidef) ∧
      (∀ᵐ y ∂P.map (observed Φ p z N), condDistrib (fun ω => WithLp.toLp 2 fun a => Φ (e a) ω) (observed Φ p z N) P y = (post y).law) ∧
      (∀ a, P[Φ (e a) | MeasurableSpace.comap (observed Φ p z N) inferInstance] =ᵐ[P] fun ω => (post (observed Φ p z N ω)).mean a) ∧
      (∀ a b, P[fun ω => (Φ (e a) ω - (post (observed Φ p z N ω)).mean a) * (Φ (e b) ω - (post (observed Φ p z N ω)).mean b) |
        MeasurableSpace.comap (observed Φ p z N) inferInstance] =ᵐ[P] fun ω => (post (observed Φ p z N ω)).var a b) ∧
      ∀ y y', (post y).var = (post y').var := by
  have hp : (obsCov P Φ p z noise (size p z)).PosDef := by
    obtain ⟨e, ⟨A, hA, hadd, _⟩, hK'⟩ := h.obsMat hT hr hc
    obtain ⟨A', hA', hadd', _⟩ := hK
    rw [hA'.unique hA, hadd] at hadd'
    cases hadd'
    rw [← hK']
    exact hp
  have hj := jointly_observed h.gaussian h.measurable hN p z e
  have hu : IsUnit (obsCov P Φ p z noise (size p z)).det := (hp.det_pos.ne').isUnit
  have hP := h.gaussian.isProbabilityMeasure
  refine ⟨_, fun y a => ?_, fun y a b => ?_, ?_, hj.condDistrib hu, hj.condExp hu, hj.condCov hu, fun _ _ => rfl⟩
  · obtain ⟨h1, h2, h3, h4⟩ := he a
    obtain ⟨v, hv, lv, ev⟩ := h.mean_call (g y) hz hT hr hc hp h4 h3 h1
    refine ⟨v, hv, ?_⟩
    have e1 := ev _ h2
    rw [List.getD_eq_getElem?_getD, List.getElem?_eq_getElem (by omega)] at e1
    rw [List.getElem?_eq_getElem (by omega)]
    simp only [Option.getD_some] at e1
    rw [e1]
    congr 1
    show _ = _ + (((Matrix.of fun (a : Fin k) (b : Fin (size p z)) => cov[Φ (e a), Φ (p, z, b); P]) * (obsCov P Φ p z noise (size p z))⁻¹) *ᵥ _) a
    rw [← mulVec_mulVec]
    rfl
  · obtain ⟨h1, h2, h3, h4⟩ := he a
    obtain ⟨k1, k2, k3, k4⟩ := he b
    obtain ⟨A, hA, r, c, eA⟩ := h.kernel_call (g y) hz hT hr hc hp h4 k4 h3 k3 h1 k1
    refine ⟨A, hA, by omega, by omega, ?_⟩
    rw [eA _ h2 _ k2]
    show _ = _ - ((Matrix.of fun (a : Fin k) (b : Fin (size p z)) => cov[Φ (e a), Φ (p, z, b); P]) * (obsCov P Φ p z noise (size p z))⁻¹ *
      (Matrix.of fun (a : Fin k) (b : Fin (size p z)) => cov[Φ (e a), Φ (p, z, b); P])ᵀ) a b
    congr 1
    rw [mul_apply, Finset.sum_comm]
    refine Finset.sum_congr rfl fun b _ => ?_
    rw [mul_apply, Finset.sum_mul]
    rfl
  · intro y
    exact (hj.residual_normal hu).toDescribes.posSemidef

end

/-! ## Gaussian processes with the means and covariances of a measure exist -/

section
variable {G : Dom} {ops : List Op} {m : MId}

open Classical in
/-- A process that is given by a random vector. -/
theorem process_of_vector {τ : Type*} {k : ℕ} {X : Ω → Fin k → ℝ} (hX : HasGaussianLaw X P) (ι : τ → Option (Fin k)) :
    IsGaussianProcess (fun t ω => ((ι t).map (X ω)).getD 0) P where
  hasGaussianLaw I := by
    let L : (Fin k → ℝ) →ₗ[ℝ] I → ℝ :=
      { toFun x t := ((ι t).map x).getD 0
        map_add' x y := by
          funext t
          show ((ι t).map (x + y)).getD 0 = ((ι t).map x).getD 0 + ((ι t).map y).getD 0
          cases ι t <;> simp
        map_smul' c x := by
          funext t
          show ((ι t).map (c • x)).getD 0 = c • ((ι t).map x).getD 0
          cases ι t <;> simp }
    exact hX.map (LinearMap.toContinuousLinearMap L)

open Classical in
/-- **C17, existence.** For a regular program and any finite number of processes and inputs, there
is a Gaussian process with the means and covariances of a measure, and independent noise with any covariance matrix. -/
theorem C17_exists (h : Regular G ops) (l : List (PId × List Pt)) (hl : ∀ e ∈ l, Attached (runOps ops {}) m e.1 ∧ Rows (G e.1) e.2) {n : ℕ} {noise : Matrix (Fin n) (Fin n) ℝ}
    (hp : noise.PosSemidef) : ∃ (k : ℕ) (P : Measure (EuclideanSpace ℝ (Fin k) × EuclideanSpace ℝ (Fin n))) (Φ : PId × Input × ℕ → _ → ℝ)
      (N : _ → Fin n → ℝ), Models P (runOps ops {}) m (fun p x => ∃ xs, x = .num xs ∧ (p, xs) ∈ l) (fun _ x => numElements x) Φ ∧
        IsNoise P Φ noise N := by
  let L : List (PId × Input × ℕ) := l.flatMap fun e => (List.range e.2.length).map fun i => (e.1, .num e.2, i)
  have hL : ∀ p xs i, (p, xs) ∈ l → i < xs.length → (p, Input.num xs, i) ∈ L := fun p xs i h1 h2 =>
    List.mem_flatMap.2 ⟨_, h1, List.mem_map.2 ⟨i, List.mem_range.2 h2, rfl⟩⟩
  let val : PId × Input × ℕ → RV := fun t => (((reading ops).F m t.1 t.2.1).getD []).getD t.2.2 0
  let S := (reading ops).S m
  let g : Normal (L.map val).length := ⟨fun a => S.E ((L.map val).get a), gram S (L.map val)⟩
  have hg : g.var.PosSemidef := gram_posSemidef _ _ (h.pos m)
  have h1 := (Normal.isNormal_law hg).isProbabilityMeasure
  have h2 := (Normal.isNormal_law (g := (⟨0, noise⟩ : Normal n)) hp).isProbabilityMeasure
  let X : EuclideanSpace ℝ (Fin (L.map val).length) × EuclideanSpace ℝ (Fin n) → Fin (L.map val).length → ℝ :=
    (fun x : EuclideanSpace ℝ (Fin (L.map val).length) => x.ofLp) ∘ Prod.fst
  have hX : IsNormal (g.law.prod (⟨0, noise⟩ : Normal n).law) X g := (Normal.isNormal_law hg).comp measurePreserving_fst
  let ι : PId × Input × ℕ → Option (Fin (L.map val).length) := fun t =>
    if ht : t ∈ L then some ⟨L.idxOf t, by rw [List.length_map]; exact List.idxOf_lt_length_iff.2 ht⟩ else none
  let Φ : PId × Input × ℕ → EuclideanSpace ℝ (Fin (L.map val).length) × EuclideanSpace ℝ (Fin n) → ℝ := fun t ω => ((ι t).map (X ω)).getD 0
  have hι : ∀ t ∈ L, ∃ a, Φ t = (fun ω => X ω a) ∧ (L.map val).get a = val t := fun t ht => by
    refine ⟨⟨L.idxOf t, by rw [List.length_map]; exact List.idxOf_lt_length_iff.2 ht⟩, ?_, ?_⟩
    · funext ω
      show ((ι t).map (X ω)).getD 0 = _
      rw [show ι t = some _ from dif_pos ht]
      rfl
    · simp
  have hmX : ∀ a, Measurable fun ω => X ω a := fun a => by
    have : Measurable X := by
      refine Measurable.comp ?_ measurable_fst
      fun_prop
    exact (measurable_pi_apply a).comp this
  have hmΦ : ∀ t, Measurable (Φ t) := fun t => by
    show Measurable fun ω => ((ι t).map (X ω)).getD 0
    cases ι t with
    | none => exact measurable_const
    | some a => exact hmX a
  refine ⟨_, g.law.prod (⟨0, noise⟩ : Normal n).law, Φ, (fun x : EuclideanSpace ℝ (Fin n) => x.ofLp) ∘ Prod.snd,
    ⟨process_of_vector hX.gaussian ι, hmΦ, ?_, ?_⟩, ⟨(Normal.isNormal_law hp).comp measurePreserving_snd, ?_, ?_⟩⟩
  · rintro p _ ⟨xs, rfl, hxs⟩
    obtain ⟨ha, hc⟩ : Attached (runOps ops {}) m p ∧ Rows (G p) xs := hl _ hxs
    obtain ⟨v, hv, lv⟩ := h.mean ha hc
    obtain ⟨vs, hF, lF⟩ := h.value ha hc
    refine ⟨v, hv, lv, fun i hi => ?_⟩
    obtain ⟨a, e1, e2⟩ := hι _ (hL p xs i hxs hi)
    rw [e1, hX.mean a]
    show S.E ((L.map val).get a) = _
    rw [e2, h.mean_eq ha hc hv hF]
    have hi' : i < vs.length := by rw [lF]; exact hi
    simp [val, hF, hi', S]
  · rintro p _ q _ ⟨xs, rfl, hxs⟩ ⟨ys, rfl, hys⟩
    obtain ⟨ha, hc⟩ : Attached (runOps ops {}) m p ∧ Rows (G p) xs := hl _ hxs
    obtain ⟨hb, hd⟩ : Attached (runOps ops {}) m q ∧ Rows (G q) ys := hl _ hys
    obtain ⟨A, hA, rA, cA⟩ := h.kernel ha hb hc hd
    obtain ⟨vs, hF, lF⟩ := h.value ha hc
    obtain ⟨ws, hG, lG⟩ := h.value hb hd
    refine ⟨A, hA, rA, cA, fun i hi j hj => ?_⟩
    obtain ⟨a, e1, e2⟩ := hι _ (hL p xs i hxs hi)
    obtain ⟨b, e3, e4⟩ := hι _ (hL q ys j hys hj)
    have hi : i < xs.length := hi
    have hj : j < ys.length := hj
    rw [e1, e3, hX.cov a b]
    show S.C ((L.map val).get a) ((L.map val).get b) = _
    rw [e2, e4, (h.kernel_eq ha hb hc hd hA hF hG).e i (by show i < vs.length; omega) j (by show j < ws.length; omega)]
    show S.C _ _ = S.C _ _
    simp [val, hF, hG]
  · refine Measurable.comp ?_ measurable_snd
    fun_prop
  · have hi := indepFun_prod (μ := g.law) (ν := (⟨0, noise⟩ : Normal n).law)
      (X := fun x : EuclideanSpace ℝ (Fin (L.map val).length) => x.ofLp) (Y := fun x : EuclideanSpace ℝ (Fin n) => x.ofLp)
      (by fun_prop) (by fun_prop)
    refine hi.comp (φ := fun x t => ((ι t).map x).getD 0) (measurable_pi_lambda _ fun t => ?_) measurable_id
    cases ι t with
    | none => exact measurable_const
    | some a => exact measurable_pi_apply a

end

/-- Conditioning the second posterior of `study` on process 3 at two points, any values: there is a Gaussian process with the means and
covariances of the second posterior, and the conditional distribution of process 5 at another point is given by the third posterior. -/
example (x1 x2 x3 : Pt) : ∃ (k : ℕ) (P : Measure (EuclideanSpace ℝ (Fin k) × EuclideanSpace ℝ (Fin 2))) (_ : IsFiniteMeasure P)
    (Φ : PId × Input × ℕ → _ → ℝ) (Z : _ → Fin 2 → ℝ) (post : (Fin 2 → ℝ) → Normal 1),
    (∀ y, ∃ v, MeanCall (runOps (study ++ [.condition 2 (.exact 3 (.num [x1, x2]) (eye 2) (List.ofFn y))]) {}) 3 5 (.num [x3]) v ∧
      v[0]? = some ((post y).mean 0)) ∧
    ∀ᵐ y ∂P.map Z, condDistrib (fun ω => WithLp.toLp 2 fun _ : Fin 1 => Φ (5, .num [x3], 0) ω) Z P y = (post y).law := by
  have hl : ∀ e ∈ [((3 : PId), [x1, x2]), (5, [x3])], Attached (runOps study {}) 2 e.1 ∧ Rows (off (· = 4) e.1) e.2 := by
    intro e he
    rw [List.mem_cons, List.mem_singleton] at he
    rcases he with rfl | rfl
    · exact ⟨attached_iff.2 (by set_option maxRecDepth 4000 in rfl), rows_off (by decide : ¬ 3 = 4)⟩
    · exact ⟨attached_iff.2 (by set_option maxRecDepth 4000 in rfl), rows_off (by decide : ¬ 5 = 4)⟩
  obtain ⟨k, P, Φ, N, hM, hN⟩ := C17_exists study_regular _ hl
    (eye_posDef 2 2).posSemidef
  have hfin := hM.gaussian.isProbabilityMeasure
  have hT : ∃ xs, Input.num [x1, x2] = .num xs ∧ ((3 : PId), xs) ∈ [((3 : PId), [x1, x2]), (5, [x3])] := ⟨_, rfl, by simp⟩
  have hT' : ∃ xs, Input.num [x3] = .num xs ∧ ((5 : PId), xs) ∈ [((3 : PId), [x1, x2]), (5, [x3])] := ⟨_, rfl, by simp⟩
  obtain ⟨e, hK, he⟩ := hM.obsMat (noise := eye 2) hT rfl rfl
  have hp : (obsCov P Φ 3 (.num [x1, x2]) (eye 2) 2).PosDef := by
    have hv := process_vector hM.gaussian fun a : Fin 2 => ((3 : PId), Input.num [x1, x2], (a : ℕ))
    have hd : Describes P (fun ω (a : Fin 2) => Φ (3, .num [x1, x2], a) ω) ⟨fun a => ∫ ω, Φ (3, .num [x1, x2], a) ω ∂P,
        Matrix.of fun a b : Fin 2 => cov[Φ (3, .num [x1, x2], a), Φ (3, .num [x1, x2], b); P]⟩ :=
      ⟨fun a => (hv.eval a).memLp_two, fun a => rfl, fun a b => rfl⟩
    exact PosDef.posSemidef_add hd.posSemidef (eye_posDef 2 2)
  obtain ⟨post, h1, _, _, h3, _⟩ := C17_conditional hM hN (p := 3) (z := .num [x1, x2]) (noise := eye 2) (Nat.succ_ne_zero 1) hT rfl rfl hK (he ▸ hp)
    (ops := fun y => study ++ [.condition 2 (.exact 3 (.num [x1, x2]) (eye 2) (List.ofFn y))]) (m' := 3)
    (fun y => ⟨⟨[], rfl⟩, (by set_option maxRecDepth 4000 in exact (by decide : 2 < 3)), (by set_option maxRecDepth 4000 in rfl)⟩)
    (e := fun _ : Fin 1 => (5, .num [x3], 0)) (fun a => ⟨hT', Nat.one_pos, trivial, attached_iff.2 (by set_option maxRecDepth 4000 in rfl)⟩)
  exact ⟨k, P, inferInstance, Φ, _, post, fun y => h1 y 0, h3⟩

end Stheno
