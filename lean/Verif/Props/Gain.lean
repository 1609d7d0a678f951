import Verif.Props.Information

/-!
# C65: observations are informative on average
-/

namespace Stheno

open Matrix MeasureTheory ProbabilityTheory

section
variable {G : Dom} {D : PId → ℕ} {ops b : List Op} {m m1 : MId} {fs gs : List Fdd}

/-- Updates with other index types. -/
theorem IsUpdate.indexed {V : Type} [AddCommGroup V] [Module ℝ V] {S S1 : SO V} {zs : List V} {N : Mat} {ys : List ℝ} {k : ℕ} (hu : IsUpdate S S1 zs N ys)
    (hp : (noisyGram S zs N).PosDef) (hl : ys.length = zs.length) (e : zs.length = k) {K : Matrix (Fin k) (Fin k) ℝ}
    (hK : ∀ i j : Fin k, K i j = S.C (zs.getD i 0) (zs.getD j 0) + N.e i j) : K.PosDef ∧
    (∀ u v, S1.C u v = S.C u v - (fun i : Fin k => S.C (zs.getD i 0) u) ⬝ᵥ (K⁻¹ *ᵥ fun j : Fin k => S.C (zs.getD j 0) v)) ∧
    ∀ u, S1.E u = S.E u + (fun i : Fin k => S.C (zs.getD i 0) u) ⬝ᵥ (K⁻¹ *ᵥ fun i : Fin k => ys.getD i 0 - S.E (zs.getD i 0)) := by
  subst e
  have hg : ∀ i : Fin zs.length, zs.getD i 0 = zs.get i := fun i => by rw [getD_lt i.2]; rfl
  obtain rfl : K = noisyGram S zs N := by
    ext i j
    rw [hK, hg, hg]
    rfl
  simp only [hg]
  refine ⟨hp, fun u v => ?_, fun u => hu.E hp hl u⟩
  rw [hu.C hp, quadSum_eq]
  rfl

/-- Later operations do not change the values of the prior. -/
theorem Regular.points_prior (h : Regular G ops) (hb : b <+: ops) (hf : ∀ f ∈ fs, FitsF G f) (ha : ∀ f ∈ fs, Attached (runOps b {}) m f.p) :
    (∀ px ∈ pointsOf fs, ((reading ops).S m).E (pointOf ((reading ops).F m px.1) px.2) = ((reading b).S m).E (pointOf ((reading b).F m px.1) px.2)) ∧
    ∀ px ∈ pointsOf fs, ∀ py ∈ pointsOf fs, ((reading ops).S m).C (pointOf ((reading ops).F m px.1) px.2) (pointOf ((reading ops).F m py.1) py.2) =
      ((reading b).S m).C (pointOf ((reading b).F m px.1) px.2) (pointOf ((reading b).F m py.1) py.2) := by
  have hpt : ∀ px ∈ pointsOf fs, ∃ f ∈ fs, px ∈ f.points := fun px hp => by
    obtain ⟨l, hl, hp⟩ := List.mem_flatten.1 hp
    obtain ⟨f, hf, rfl⟩ := List.mem_map.1 hl
    exact ⟨f, hf, hp⟩
  have hB := h.pre hb
  have ha' : ∀ f ∈ fs, Attached (runOps ops {}) m f.p := fun f hf => attached_pre (ha f hf) hb
  obtain ⟨t, rfl⟩ := hb
  refine ⟨fun px hp => ?_, fun px hp py hq => ?_⟩
  · obtain ⟨f, hf', hp⟩ := hpt px hp
    exact List.map_inj_left.1 ((h.fdd_mean (hf f hf') (ha' f hf')).unique (C05_mean_call (hB.fdd_mean (hf f hf') (ha f hf')))) px hp
  · obtain ⟨f, hf', hp⟩ := hpt px hp
    obtain ⟨g, hg', hq⟩ := hpt py hq
    obtain ⟨A, hA, eA⟩ := h.fdd_kernel (hf f hf') (hf g hg') (ha' f hf') (ha' g hg')
    obtain ⟨A', hA', eA'⟩ := hB.fdd_kernel (hf f hf') (hf g hg') (ha f hf') (ha g hg')
    rw [(C05_kernel_call hA').unique hA] at eA'
    have hE := eA.symm.trans eA'
    obtain ⟨i, hi, rfl⟩ := List.mem_iff_getElem.1 hp
    obtain ⟨j, hj, rfl⟩ := List.mem_iff_getElem.1 hq
    have := hE.e i (by simpa [covMat] using hi) j (by simpa [covMat] using hj)
    simp only [covMat] at this
    rw [getD_lt (by simpa using hi), getD_lt (by simpa using hj), getD_lt (by simpa using hi), getD_lt (by simpa using hj)] at this
    simpa only [List.getElem_map] using this

theorem valuesOf_getD (F : PId → RF RV) {i : ℕ} (hi : i < (pointsOf fs).length) : (valuesOf F fs).getD i 0 = pointOf (F (pointsOf fs)[i].1) (pointsOf fs)[i].2 := by
  rw [getD_lt (by rw [valuesOf_length]; exact hi)]
  exact List.getElem_map ..

/-- The covariances between the values of lists of FDDs. -/
noncomputable def crossOf (S : SO RV) (F : PId → RF RV) (fs gs : List Fdd) : Matrix (Fin (pointsOf fs).length) (Fin (pointsOf gs).length) ℝ :=
  fun i j => S.C ((valuesOf F fs).getD i 0) ((valuesOf F gs).getD j 0)

/-- The joint distribution after an update, in terms of that before all later operations. -/
theorem jointOf_update (h : Regular G ops) (ht : Tells (Dead G) D ops) {l : List (Fdd × Vals)} (hl : ∀ e ∈ l, FitsV G e) (hA : AtAvailable fs l)
    (c : Conditioned ops b m l m1) (af : ∀ f ∈ fs, Attached (runOps b {}) m f.p) (hg : ∀ g ∈ gs, FitsF G g) (ag : ∀ g ∈ gs, Attached (runOps b {}) m g.p) (hb : b <+: ops)
    {y : Fin (pointsOf fs).length → ℝ} (hy : l.flatMap (fun e => e.2.filterMap id) = List.ofFn y) :
    (jointOf ((reading b).S m) ((reading b).F m) fs).var.PosDef ∧
    jointOf ((reading ops).S m) ((reading ops).F m) gs = jointOf ((reading b).S m) ((reading b).F m) gs ∧
    jointOf ((reading ops).S m1) ((reading ops).F m1) gs =
      ⟨(jointOf ((reading b).S m) ((reading b).F m) gs).mean + (crossOf ((reading b).S m) ((reading b).F m) fs gs)ᵀ *ᵥ
          ((jointOf ((reading b).S m) ((reading b).F m) fs).var⁻¹ *ᵥ (y - (jointOf ((reading b).S m) ((reading b).F m) fs).mean)),
        (jointOf ((reading b).S m) ((reading b).F m) gs).var - (crossOf ((reading b).S m) ((reading b).F m) fs gs)ᵀ *
          (jointOf ((reading b).S m) ((reading b).F m) fs).var⁻¹ * crossOf ((reading b).S m) ((reading b).F m) fs gs⟩ := by
  have hf := hA.fits hl
  obtain ⟨hu, hp, hF⟩ := hA.update h ht hl c
  have hfg : ∀ f ∈ fs ++ gs, FitsF G f := fun f hf' => by
    rcases List.mem_append.1 hf' with h' | h'
    · exact hf f h'
    · exact hg f h'
  obtain ⟨hE, hC⟩ := h.points_prior hb hfg (m := m) fun f hf' => by
    rcases List.mem_append.1 hf' with h' | h'
    · exact af f h'
    · exact ag f h'
  have mf : ∀ i (hi : i < (pointsOf fs).length), (pointsOf fs)[i] ∈ pointsOf (fs ++ gs) := fun i hi => by
    rw [show pointsOf (fs ++ gs) = pointsOf fs ++ pointsOf gs by simp [pointsOf]]
    exact List.mem_append_left _ (List.getElem_mem _)
  have mg : ∀ i (hi : i < (pointsOf gs).length), (pointsOf gs)[i] ∈ pointsOf (fs ++ gs) := fun i hi => by
    rw [show pointsOf (fs ++ gs) = pointsOf fs ++ pointsOf gs by simp [pointsOf]]
    exact List.mem_append_right _ (List.getElem_mem _)
  have hys : (l.map available).flatMap (·.2) = List.ofFn y := by
    rw [← hy, List.flatMap_map]
    rfl
  rw [hys] at hu
  have hv1 : valuesOf ((reading ops).F m1) gs = valuesOf ((reading ops).F m) gs := valuesOf_congr fun g hg' => hF g.p (ag g hg')
  obtain ⟨k1, k2, k3⟩ := hu.indexed hp (by rw [List.length_ofFn, valuesOf_length]) (valuesOf_length _ _)
    (K := (jointOf ((reading b).S m) ((reading b).F m) fs).var) fun i j => by
      simp only [jointOf]
      rw [valuesOf_getD _ i.2, valuesOf_getD _ j.2, valuesOf_getD _ i.2, valuesOf_getD _ j.2, hC _ (mf i i.2) _ (mf j j.2)]
  have hX : ∀ (i : Fin (pointsOf fs).length) (j : Fin (pointsOf gs).length),
      ((reading ops).S m).C ((valuesOf ((reading ops).F m) fs).getD i 0) ((valuesOf ((reading ops).F m) gs).getD j 0) =
        crossOf ((reading b).S m) ((reading b).F m) fs gs i j := fun i j => by
    unfold crossOf
    rw [valuesOf_getD _ i.2, valuesOf_getD _ j.2, valuesOf_getD _ i.2, valuesOf_getD _ j.2, hC _ (mf i i.2) _ (mg j j.2)]
  refine ⟨k1, ?_, ?_⟩
  · unfold jointOf
    congr 1
    · funext i
      rw [valuesOf_getD _ i.2, valuesOf_getD _ i.2, hE _ (mg i i.2)]
    · funext i j
      rw [valuesOf_getD _ i.2, valuesOf_getD _ j.2, valuesOf_getD _ i.2, valuesOf_getD _ j.2, hC _ (mg i i.2) _ (mg j j.2)]
  · rw [jointOf, hv1]
    congr 1
    · funext i
      rw [k3]
      simp only [hX]
      have e1 : (fun i : Fin (pointsOf fs).length => (List.ofFn y).getD i 0 - ((reading ops).S m).E ((valuesOf ((reading ops).F m) fs).getD i 0)) =
          y - (jointOf ((reading b).S m) ((reading b).F m) fs).mean := by
        funext i
        simp only [jointOf, Pi.sub_apply]
        rw [valuesOf_getD _ i.2, valuesOf_getD _ i.2, hE _ (mf i i.2), getD_lt (by simp)]
        simp
      rw [e1, Pi.add_apply]
      congr 1
      simp only [jointOf]
      rw [valuesOf_getD _ i.2, valuesOf_getD _ i.2, hE _ (mg i i.2)]
    · funext i j
      rw [k2]
      simp only [hX]
      rw [Matrix.sub_apply, Matrix.mul_assoc, Matrix.mul_apply]
      simp only [jointOf]
      rw [valuesOf_getD _ i.2, valuesOf_getD _ j.2, valuesOf_getD _ i.2, valuesOf_getD _ j.2, hC _ (mg i i.2) _ (mg j j.2)]
      simp only [dotProduct, Matrix.transpose_apply, Matrix.mulVec, Matrix.mul_apply]
      ring

theorem Conditioned.pre {l : List (Fdd × Vals)} (c : Conditioned ops b m l m1) : b <+: ops := by
  cases c with
  | direct _ _ _ hp => exact (List.prefix_append _ _).trans hp
  | object _ _ _ _ hp => exact (List.prefix_append _ _).trans hp

/-- The expectation of a divergence of normals of which the mean of one is a linear function of data. -/
theorem expected_kl {n k : ℕ} {Ω : Type*} [MeasurableSpace Ω] {P : Measure Ω} [IsProbabilityMeasure P] {Y : Ω → Fin n → ℝ} {g : Normal n} {h : Normal k}
    {B : Matrix (Fin n) (Fin k) ℝ} (hY : Describes P Y g) (hg : g.var.PosDef) (hh : h.var.PosDef) :
    Integrable (fun ω => Normal.kl ⟨h.mean + Bᵀ *ᵥ (g.var⁻¹ *ᵥ (Y ω - g.mean)), h.var - Bᵀ * g.var⁻¹ * B⟩ h) P ∧
    ∫ ω, Normal.kl ⟨h.mean + Bᵀ *ᵥ (g.var⁻¹ *ᵥ (Y ω - g.mean)), h.var - Bᵀ * g.var⁻¹ * B⟩ h ∂P = h.entropy - Normal.entropy ⟨h.mean, h.var - Bᵀ * g.var⁻¹ * B⟩ := by
  set A := Bᵀ * g.var⁻¹ with hA
  have hq : ∀ x : Fin n → ℝ, (h.mean - (h.mean + Bᵀ *ᵥ (g.var⁻¹ *ᵥ x))) ⬝ᵥ (h.var⁻¹ *ᵥ (h.mean - (h.mean + Bᵀ *ᵥ (g.var⁻¹ *ᵥ x)))) =
      x ⬝ᵥ ((Aᵀ * h.var⁻¹ * A) *ᵥ x) := fun x => by
    have hx : Bᵀ *ᵥ (g.var⁻¹ *ᵥ x) = A *ᵥ x := mulVec_mulVec ..
    rw [hx, sub_add_cancel_left, mulVec_neg, neg_dotProduct_neg, Matrix.mul_assoc, ← mulVec_mulVec x Aᵀ, dotProduct_mulVec x, vecMul_transpose, mulVec_mulVec]
  obtain ⟨hi, he⟩ := hY.quadratic (Aᵀ * h.var⁻¹ * A) g.mean
  rw [sub_self, zero_dotProduct, add_zero] at he
  have hk : ∀ ω, Normal.kl ⟨h.mean + Bᵀ *ᵥ (g.var⁻¹ *ᵥ (Y ω - g.mean)), h.var - A * B⟩ h =
      ((Y ω - g.mean) ⬝ᵥ ((Aᵀ * h.var⁻¹ * A) *ᵥ (Y ω - g.mean)) + ((h.var⁻¹ * (h.var - A * B)).trace + Real.log h.var.det - Real.log (h.var - A * B).det - k)) / 2 := fun ω => by
    unfold Normal.kl
    simp only
    rw [hq]
    ring
  simp only [hk]
  refine ⟨(hi.add (integrable_const _)).div_const 2, ?_⟩
  rw [integral_div, integral_add hi (integrable_const _), he, integral_const, probReal_univ, one_smul]
  have hgs : (g.var⁻¹)ᵀ = g.var⁻¹ := by rw [transpose_nonsing_inv, ← conjTranspose_eq_transpose_of_trivial, hg.isHermitian.eq]
  have t1 : (Aᵀ * h.var⁻¹ * A * g.var).trace = (h.var⁻¹ * (A * B)).trace := by
    have : A * g.var = Bᵀ := by rw [hA, Matrix.mul_assoc, nonsing_inv_mul _ (hg.isUnit.map detMonoidHom), Matrix.mul_one]
    rw [Matrix.mul_assoc, this, trace_mul_comm, ← Matrix.mul_assoc, trace_mul_comm]
    congr 2
    rw [hA, transpose_mul, transpose_transpose, hgs, Matrix.mul_assoc]
  have t2 : (h.var⁻¹ * (h.var - A * B)).trace = k - (h.var⁻¹ * (A * B)).trace := by
    rw [Matrix.mul_sub, nonsing_inv_mul _ (hh.isUnit.map detMonoidHom), trace_sub, trace_one, Fintype.card_fin]
  rw [t1, t2]
  unfold Normal.entropy
  simp only
  ring

/-- **C65.** In regular programs: let data be random, with the mean and variance of FDDs under a measure. The expected divergence from the measure to its posterior given these
data, for any other FDDs, is how much conditioning reduces the entropy of these FDDs. In all notations and with missing data. -/
theorem C65_gain {n : ℕ} {Ω : Type*} [MeasurableSpace Ω] {P : Measure Ω} [IsProbabilityMeasure P] {Y : Ω → Fin n → ℝ} {ops : (Fin n → ℝ) → List Op}
    {l : (Fin n → ℝ) → List (Fdd × Vals)} {f : Fdd} {v : List ℝ} {W : Mat} {k : (Fin n → ℝ) → ℝ} {y0 : Fin n → ℝ} {r r1 : ℝ} (h : ∀ y, Regular G (ops y))
    (ht : ∀ y, Tells (Dead G) D (ops y)) (c : ∀ y, Conditioned (ops y) b m (l y) m1) (hl : ∀ y, ∀ e ∈ l y, FitsV G e) (hA : ∀ y, AtAvailable fs (l y))
    (hy : ∀ y, (l y).flatMap (fun e => e.2.filterMap id) = List.ofFn y) (hg : ∀ g ∈ gs, FitsF G g) (ag : ∀ g ∈ gs, Attached (runOps b {}) m g.p)
    (hj : JointFdd b m fs f) (hn : FddNormal (runOps b {}) f v W) (hr : W.r = n) (hv : v.length = n) (hY : Describes P Y (normalOf n v W))
    (hk : ∀ y, KlOf (ops y) m1 m gs (k y)) (e : EntropyOf (ops y0) m gs r) (e1 : EntropyOf (ops y0) m1 gs r1) :
    Integrable (fun ω => k (Y ω)) P ∧ ∫ ω, k (Y ω) ∂P = r - r1 := by
  have hB := (h y0).pre (c y0).pre
  have hf := (hA y0).fits (hl y0)
  obtain ⟨af, rfl, hjf⟩ := hB.joint_of hf (List.prefix_refl _) hj hn hr hv
  rw [hjf] at hY
  have hu := fun y => jointOf_update (h y) (ht y) (hl y) (hA y) (c y) af hg ag (c y).pre (hy y)
  have hp : (jointOf ((reading b).S m) ((reading b).F m) gs).var.PosDef := by
    rw [← (hu y0).2.1]
    exact ((hk y0).value (h y0) hg).2.1
  have hke : ∀ y, k y = _ := fun y => by
    rw [((hk y).value (h y) hg).2.2, (hu y).2.1, (hu y).2.2]
  simp only [hke]
  obtain ⟨hi, he⟩ := expected_kl (B := crossOf ((reading b).S m) ((reading b).F m) fs gs) hY (hu y0).1 hp
  refine ⟨hi, he.trans ?_⟩
  obtain ⟨-, -, rfl⟩ := e.value (h y0) hg
  obtain ⟨-, -, rfl⟩ := e1.value (h y0) hg
  rw [← (jointOf_obs _ _ _).1, ← (jointOf_obs _ _ _).1, (hu y0).2.1, (hu y0).2.2]
  rfl

theorem AtAvailable.attached {w : World} {l : List (Fdd × Vals)} (hA : AtAvailable fs l) (ha : ∀ f ∈ fs, Attached w m f.p) : ∀ e ∈ l.map available, Attached w m e.1.p := by
  induction hA with
  | nil => simp
  | @cons f e fs l h _ ih =>
    intro e' he
    rw [List.map_cons] at he
    rcases List.mem_cons.1 he with rfl | he
    · rw [← h.1]
      exact ha f (by simp)
    · exact ih (fun f hf => ha f (by simp [hf])) e' he

/-- Log-densities in terms of joint distributions. -/
theorem Logpdf.joint {l : List (Fdd × Vals)} {r : ℝ} (e : Logpdf ops b m l r) (h : Regular G ops) (ht : Tells (Dead G) D ops) (hl : ∀ e ∈ l, FitsV G e) (hA : AtAvailable fs l)
    (ha : ∀ f ∈ fs, Attached (runOps ops {}) m f.p) {y : Fin (pointsOf fs).length → ℝ} (hy : l.flatMap (fun e => e.2.filterMap id) = List.ofFn y) :
    r = (jointOf ((reading ops).S m) ((reading ops).F m) fs).logpdfFull y := by
  have hfit := fits_available hl
  have hf := hA.fits hl
  have hat : ∀ e ∈ l.map available, Attached (runOps ops {}) m e.1.p := hA.attached ha
  obtain ⟨zss, hz⟩ := h.blocks hfit hat
  have hpad : (reading ops).Blocks m (padded ((l.map available).map (·.1))) zss := by
    clear hfit hat
    generalize l.map available = k at hz
    induction hz with
    | nil => exact .nil
    | cons h1 _ ih => exact .cons ⟨h1.1, h1.2.1, h1.2.2.1, by simpa using h1.2.1⟩ ih
  have hvals := h.points_values (fun f hf => by
    obtain ⟨e, he, rfl⟩ := List.mem_map.1 hf
    obtain ⟨xs, k1, k2, k3, k4, -⟩ := hfit e he
    exact ⟨xs, k1, k2, k3, k4⟩) hpad
  rw [← hA.points.1] at hvals
  have hN := hA.points.2
  have hnoise : Mat.blockDiag ((l.map available).map (·.1.noise)) = noiseOf ((l.map available).map (·.1)) := by
    unfold noiseOf
    rw [List.map_map (l := l.map available)]
    rfl
  obtain ⟨rfl, -⟩ := e.value h.reads ht hl hz
  have hys : (l.map available).flatMap (·.2) = List.ofFn y := by
    rw [← hy, List.flatMap_map]
    rfl
  change _ = valuesOf ((reading ops).F m) fs at hvals
  rw [hvals, hnoise, hys]
  obtain ⟨hr, hc⟩ := noiseOf_size fun f h' => (hf f h').sized
  have key : ∀ {n k : ℕ} (e : n = k) (g : Normal n) (g' : Normal k) (x : Fin n → ℝ) (x' : Fin k → ℝ), (∀ i, g.mean i = g'.mean (Fin.cast e i)) →
      (∀ i j, g.var i j = g'.var (Fin.cast e i) (Fin.cast e j)) → (∀ i, x i = x' (Fin.cast e i)) → g.logpdfFull x = g'.logpdfFull x' := by
    intro n k e g g' x x' h1 h2 h3
    subst e
    obtain ⟨a, A⟩ := g
    obtain ⟨a', A'⟩ := g'
    obtain rfl : a = a' := funext h1
    obtain rfl : A = A' := Matrix.ext h2
    obtain rfl : x = x' := funext h3
    rfl
  refine key (valuesOf_length _ _) _ _ _ _ (fun i => ?_) (fun i j => ?_) fun i => ?_
  · show ((reading ops).S m).E ((valuesOf ((reading ops).F m) fs).get i) = ((reading ops).S m).E ((valuesOf ((reading ops).F m) fs).getD i 0)
    rw [getD_lt i.2]
    rfl
  · show ((reading ops).S m).C ((valuesOf ((reading ops).F m) fs).get i) ((valuesOf ((reading ops).F m) fs).get j) + (noiseOf ((l.map available).map (·.1))).e i j =
      ((reading ops).S m).C ((valuesOf ((reading ops).F m) fs).getD i 0) ((valuesOf ((reading ops).F m) fs).getD j 0) + (noiseOf fs).e i j
    rw [getD_lt i.2, getD_lt j.2]
    have hi : (i : ℕ) < (pointsOf fs).length := i.2.trans_eq (valuesOf_length _ _)
    have hj : (j : ℕ) < (pointsOf fs).length := j.2.trans_eq (valuesOf_length _ _)
    rw [hN.e i (hi.trans_eq (hr.symm.trans hN.r)) j (hj.trans_eq (hc.symm.trans hN.c))]
    rfl
  · have hi : (i : ℕ) < (pointsOf fs).length := i.2.trans_eq (valuesOf_length _ _)
    rw [getD_lt (by simpa using hi)]
    simp
    rfl

/-- **C65.** In regular programs: let data be random, with the mean and variance of FDDs under a measure. The expected log-density of the data under the measure is minus the entropy,
and the expected log-density under another measure is less by the divergence. -/
theorem C65_score {n : ℕ} {Ω : Type*} [MeasurableSpace Ω] {P : Measure Ω} [IsProbabilityMeasure P] {Y : Ω → Fin n → ℝ} {b' c : List Op}
    {l : (Fin n → ℝ) → List (Fdd × Vals)} {f : Fdd} {v : List ℝ} {W : Mat} {L L' : (Fin n → ℝ) → ℝ} {r s : ℝ} (h : Regular G ops)
    (ht : Tells (Dead G) D ops) (hL : ∀ y, Logpdf ops b m (l y) (L y)) (hL' : ∀ y, Logpdf ops b' m1 (l y) (L' y)) (hl : ∀ y, ∀ e ∈ l y, FitsV G e)
    (hA : ∀ y, AtAvailable fs (l y)) (hy : ∀ y, (l y).flatMap (fun e => e.2.filterMap id) = List.ofFn y) (hc : c <+: ops)
    (hj : JointFdd c m fs f) (hn : FddNormal (runOps c {}) f v W) (hr : W.r = n) (hv : v.length = n) (hY : Describes P Y (normalOf n v W))
    (e : EntropyOf ops m fs s) (e1 : KlOf ops m m1 fs r) :
    Integrable (fun ω => L (Y ω)) P ∧ Integrable (fun ω => L' (Y ω)) P ∧ ∫ ω, L (Y ω) ∂P = - s ∧ ∫ ω, L' (Y ω) ∂P = - s - r := by
  have hf := (hA 0).fits (hl 0)
  obtain ⟨af, rfl, hjf⟩ := h.joint_of hf hc hj hn hr hv
  rw [hjf] at hY
  have af1 : ∀ f ∈ fs, Attached (runOps ops {}) m1 f.p := by
    obtain ⟨c, g, g', hc, hj, hj', -⟩ := e1
    exact hj'.attached hc h.reads
  have k1 := fun y => (hL y).joint h ht (hl y) (hA y) af (hy y)
  have k2 := fun y => (hL' y).joint h ht (hl y) (hA y) af1 (hy y)
  simp only [k1, k2]
  obtain ⟨p, p1, rfl⟩ := e1.value h hf
  obtain ⟨-, -, rfl⟩ := e.value h hf
  rw [← (jointOf_obs _ _ _).1]
  obtain ⟨i1, j1⟩ := hY.logpdf (jointOf ((reading ops).S m) ((reading ops).F m) fs)
  obtain ⟨i2, j2⟩ := hY.logpdf (jointOf ((reading ops).S m1) ((reading ops).F m1) fs)
  have hE : ∫ ω, (jointOf ((reading ops).S m) ((reading ops).F m) fs).logpdfFull (Y ω) ∂P = -(jointOf ((reading ops).S m) ((reading ops).F m) fs).entropy := by
    rw [j1, nonsing_inv_mul _ (p.isUnit.map detMonoidHom), trace_one, sub_self, zero_dotProduct, Fintype.card_fin]
    unfold Normal.entropy
    ring
  refine ⟨i1, i2, hE, ?_⟩
  have := kl_eq (h := jointOf ((reading ops).S m1) ((reading ops).F m1) fs) hY p
  rw [integral_sub i1 i2] at this
  linarith

/-- **C65.** In regular programs: for data with the mean and variance of FDDs under a measure, no measure has a larger expected log-density than that measure, and another
measure has the same exactly if all mean and kernel calls of the FDDs are the same under both measures. -/
theorem C65_proper {n : ℕ} {Ω : Type*} [MeasurableSpace Ω] {P : Measure Ω} [IsProbabilityMeasure P] {Y : Ω → Fin n → ℝ} {b' c : List Op}
    {l : (Fin n → ℝ) → List (Fdd × Vals)} {f : Fdd} {v : List ℝ} {W : Mat} {L L' : (Fin n → ℝ) → ℝ} {r s : ℝ} (h : Regular G ops)
    (ht : Tells (Dead G) D ops) (hL : ∀ y, Logpdf ops b m (l y) (L y)) (hL' : ∀ y, Logpdf ops b' m1 (l y) (L' y)) (hl : ∀ y, ∀ e ∈ l y, FitsV G e)
    (hA : ∀ y, AtAvailable fs (l y)) (hy : ∀ y, (l y).flatMap (fun e => e.2.filterMap id) = List.ofFn y) (hc : c <+: ops)
    (hj : JointFdd c m fs f) (hn : FddNormal (runOps c {}) f v W) (hr : W.r = n) (hv : v.length = n) (hY : Describes P Y (normalOf n v W))
    (e : EntropyOf ops m fs s) (e1 : KlOf ops m m1 fs r) : ∫ ω, L' (Y ω) ∂P ≤ ∫ ω, L (Y ω) ∂P ∧ (∫ ω, L' (Y ω) ∂P = ∫ ω, L (Y ω) ∂P ↔
      (∀ f ∈ fs, ∀ v v1, MeanCall (runOps ops {}) m f.p f.x v → MeanCall (runOps ops {}) m1 f.p f.x v1 → v = v1) ∧
        ∀ f ∈ fs, ∀ f' ∈ fs, ∀ A A1, KernelCall (runOps ops {}) m f.p f'.p f.x f'.x A → KernelCall (runOps ops {}) m1 f.p f'.p f.x f'.x A1 → A.Eqv A1) := by
  obtain ⟨-, -, k1, k2⟩ := C65_score h ht hL hL' hl hA hy hc hj hn hr hv hY e e1
  obtain ⟨h0, hz⟩ := C64_kl_zero h ((hA 0).fits (hl 0)) e1
  rw [k1, k2, ← hz]
  exact ⟨by linarith, by constructor <;> intro h <;> linarith⟩

end

/-! ## An example -/

/-- A GP of which an FDD is made, which is then observed at one point to be `t`. Then FDDs of the GP in the prior and in the posterior. -/
noncomputable def asked (t : ℝ) : List Op :=
  [.gp .zero affine none none, .call 0 0, .condition 0 (.exact 0 (.num [[0]]) (eye 1) [t]), .call 0 0, .call 1 0]

theorem asked_regular (t : ℝ) : Regular (fun _ _ => True) (asked t) := by
  have h1 : Solid (fun _ _ => True) ((asked t).take 1) := C46_extend .nil (o := .gp .zero affine none none) ⟨trivial, trivial, affine_psd⟩
    (fun _ _ h => by cases h) (fun m e he _ => by
      simp only [Op.written, List.mem_singleton] at he
      subst he
      exact ⟨trivial, trivial⟩) fun _ _ _ h => by cases h
  have h2 : Solid (fun _ _ => True) ((asked t).take 2) := C46_extend h1 (o := .call 0 0) trivial (fun _ _ h => by cases h) (fun m e he _ => by
    simp only [Op.written, List.mem_singleton] at he
    subst he
    exact fun x _ => trivial) fun _ _ _ h => by cases h
  have h3 : Solid (fun _ _ => True) ((asked t).take 3) := C46_condition (m := 0) (p := 0) h2 (attached_iff.2 rfl) (by simp [Rows]) rfl rfl rfl (eye_posDef 1 1)
  have h4 : Solid (fun _ _ => True) ((asked t).take 4) := C46_extend h3 (o := .call 0 0) trivial (fun _ _ h => by cases h) (fun m e he _ => by
    simp only [Op.written, List.mem_singleton] at he
    subst he
    exact fun x _ => trivial) fun _ _ _ h => by cases h
  exact (C46_extend h4 (o := .call 1 0) trivial (fun _ _ h => by cases h) (fun m e he _ => by
    simp only [Op.written, List.mem_singleton] at he
    subst he
    exact fun x _ => trivial) fun _ _ _ h => by cases h).regular

theorem asked_tells (t : ℝ) : Tells (Dead (fun _ _ => True)) (fun _ => 2) (asked t) := by
  have hd : Dead (fun _ _ => True) = fun _ => False := by
    funext p
    simp [Dead, Live]
  rw [hd]
  refine splits (ops := asked t) (P := fun before o => ∀ m, ∀ e ∈ o.written (runOps before {}).gps.length m,
      Sorted (fun _ => False) e ∧ Counts (fun _ => 2) e) ⟨?_, ?_, ?_, ?_, ?_, trivial⟩
  all_goals
    intro m e he
    first
      | exact (List.not_mem_nil he).elim
      | have he := List.mem_singleton.1 he
        subst he
        first
          | exact ⟨⟨fun _ => ⟨trivial, trivial⟩, fun h => h.elim⟩, trivial⟩
          | exact ⟨⟨fun _ h => h, fun h => h.elim⟩, rfl⟩

theorem asked_conditioned (t : ℝ) : Conditioned (asked t) ((asked 0).take 2) 0 [(early, [some t])] 1 :=
  .direct (n := 1) (ord := []) (.plain early [some t]) (.inl rfl) rfl ⟨(asked t).drop 3, rfl⟩ (by decide : 0 < 1) rfl
    (fun e he => by cases List.mem_singleton.1 he; exact attached_iff.2 rfl)

theorem asked_one (t : ℝ) (m : MId) (hm : m = 0 ∨ m = 1) : ∃ g, JointFdd (asked t) m [late] g := by
  rcases hm with rfl | rfl
  · exact ⟨⟨2, late.x, late.noise⟩, .one (b := (asked t).take 3) (o := .call 0 0) rfl ⟨(asked t).drop 4, rfl⟩⟩
  · exact ⟨⟨3, late.x, late.noise⟩, .one (b := (asked t).take 4) (o := .call 1 0) (by rfl) ⟨[], by rfl⟩⟩

theorem asked_late : (∀ f ∈ [late], FitsF (fun _ _ => True) f) ∧ ∀ f ∈ [late], (f.noise.sq f.noise.r).PosDef := by
  refine ⟨fun f hf => ?_, fun f hf => ?_⟩
  · cases List.mem_singleton.1 hf
    exact ⟨_, rfl, .one trivial, rfl, rfl⟩
  · cases List.mem_singleton.1 hf
    exact eye_posDef 1 1

theorem asked_full {f : Fdd} (hf : ∃ x, f = ⟨0, .num [x], eye 1⟩) (t : ℝ) : (∀ e ∈ [(f, ([some t] : Vals))], FitsV (fun _ _ => True) e) ∧ AtAvailable [f] [(f, [some t])] := by
  have h : ∀ e ∈ [(f, ([some t] : Vals))], FitsV (fun _ _ => True) e := fun e he => by
    obtain ⟨x, rfl⟩ := hf
    cases List.mem_singleton.1 he
    exact ⟨_, rfl, .one trivial, rfl, rfl, rfl⟩
  exact ⟨h, .full (G := fun _ _ => True) fun e he => ⟨h e he, by cases List.mem_singleton.1 he; rfl⟩⟩

/-- C65 for `asked`: for data drawn from the prior, the divergence is on average what the entropy is reduced by. All of the quantities exist, and so do such data. -/
example : ∃ (f : Fdd) (v : List ℝ) (W : Mat) (k : ℝ → ℝ) (r r1 : ℝ), FddNormal (runOps ((asked 0).take 2) {}) f v W ∧ (∀ t, KlOf (asked t) 1 0 [late] (k t)) ∧
    EntropyOf (asked 0) 0 [late] r ∧ EntropyOf (asked 0) 1 [late] r1 ∧
    (∃ (P : Measure (EuclideanSpace ℝ (Fin 1))) (Y : EuclideanSpace ℝ (Fin 1) → Fin 1 → ℝ), IsProbabilityMeasure P ∧ Describes P Y (normalOf 1 v W)) ∧
    ∀ {Ω : Type} [MeasurableSpace Ω] {P : Measure Ω} [IsProbabilityMeasure P] {Y : Ω → Fin 1 → ℝ}, Describes P Y (normalOf 1 v W) → ∫ ω, k (Y ω 0) ∂P = r - r1 := by
  have hf : ∀ f ∈ [early], FitsF (fun _ _ => True) f := fun f hf => by
    cases List.mem_singleton.1 hf
    exact ⟨_, rfl, .one trivial, rfl, rfl⟩
  have hN : ∀ f ∈ [early], (f.noise.sq f.noise.r).PosDef := fun f hf => by
    cases List.mem_singleton.1 hf
    exact eye_posDef 1 1
  have hreg : Regular (fun _ _ => True) ((asked 0).take 2) := (asked_regular 0).pre ⟨(asked 0).drop 2, rfl⟩
  have hj : JointFdd ((asked 0).take 2) 0 [early] _ := .one (b := (asked 0).take 1) (o := .call 0 0) rfl ⟨[], rfl⟩
  obtain ⟨v, W, hn, h1, h2, h3, h4⟩ := hj.returns hreg (by simp) hf hN
  have hk : ∀ t, ∃ k, KlOf (asked t) 1 0 [late] k := fun t => by
    obtain ⟨_, a1⟩ := asked_one t 1 (.inr rfl)
    obtain ⟨_, a0⟩ := asked_one t 0 (.inl rfl)
    exact (C64_divergence (asked_regular t) (by simp) asked_late.1 asked_late.2 a1 a0).1
  choose k hk using hk
  obtain ⟨_, a1⟩ := asked_one 0 1 (.inr rfl)
  obtain ⟨_, a0⟩ := asked_one 0 0 (.inl rfl)
  obtain ⟨r, e⟩ := C64_entropy (asked_regular 0) (by simp) asked_late.1 asked_late.2 a0
  obtain ⟨r1, e1⟩ := C64_entropy (asked_regular 0) (by simp) asked_late.1 asked_late.2 a1
  refine ⟨_, v, W, k, r, r1, hn, hk, e, e1, ?_, fun {Ω _ P _ Y} hY => ?_⟩
  · have hX := Normal.isNormal_law (g := normalOf 1 v W) (PosDef.posSemidef h4)
    have := hX.isProbabilityMeasure
    exact ⟨_, _, this, hX.toDescribes⟩
  · have ha : ∀ g ∈ [late], Attached (runOps ((asked 0).take 2) {}) 0 g.p := fun f hf => by
      cases List.mem_singleton.1 hf
      exact attached_iff.2 rfl
    exact (C65_gain (ops := fun y : Fin 1 → ℝ => asked (y 0)) (l := fun y : Fin 1 → ℝ => [(early, [some (y 0)])]) (k := fun y : Fin 1 → ℝ => k (y 0)) (y0 := 0) (fun y => asked_regular (y 0)) (fun y => asked_tells (y 0))
      (fun y => asked_conditioned (y 0)) (fun y => (asked_full ⟨_, rfl⟩ (y 0)).1) (fun y => (asked_full ⟨_, rfl⟩ (y 0)).2) (fun y => by simp) asked_late.1 ha
      hj hn h1 h3 hY (fun y => hk (y 0)) e e1).2

/-- C65 for `asked`: for data drawn from the prior, the expected log-density under the prior is larger than under the posterior. -/
example : ∃ (f : Fdd) (v : List ℝ) (W : Mat) (L L' : ℝ → ℝ), FddNormal (runOps (asked 3) {}) f v W ∧ (∀ t, Logpdf (asked 3) ((asked 3).take 3) 0 [(late, [some t])] (L t)) ∧
    (∀ t, Logpdf (asked 3) ((asked 3).take 4) 1 [(late, [some t])] (L' t)) ∧
    ∀ {Ω : Type} [MeasurableSpace Ω] {P : Measure Ω} [IsProbabilityMeasure P] {Y : Ω → Fin 1 → ℝ}, Describes P Y (normalOf 1 v W) →
      ∫ ω, L' (Y ω 0) ∂P ≤ ∫ ω, L (Y ω 0) ∂P := by
  have hL : ∀ t, ∃ r, Logpdf (asked 3) ((asked 3).take 3) 0 [(late, [some t])] r := fun t =>
    logpdf_plain (e := (late, [some t])) (b := (asked 3).take 3) (ord := []) (m := 0) (asked_regular 3) ⟨_, rfl, .one trivial, rfl, rfl, rfl⟩ (eye_posDef 1 1) rfl ⟨(asked 3).drop 4, rfl⟩
  have hL' : ∀ t, ∃ r, Logpdf (asked 3) ((asked 3).take 4) 1 [(late, [some t])] r := fun t =>
    logpdf_plain (e := (late, [some t])) (b := (asked 3).take 4) (ord := []) (m := 1) (asked_regular 3) ⟨_, rfl, .one trivial, rfl, rfl, rfl⟩ (eye_posDef 1 1) rfl ⟨[], rfl⟩
  choose L hL using hL
  choose L' hL' using hL'
  obtain ⟨_, a1⟩ := asked_one 3 1 (.inr rfl)
  obtain ⟨f, a0⟩ := asked_one 3 0 (.inl rfl)
  obtain ⟨r, e⟩ := C64_entropy (asked_regular 3) (by simp) asked_late.1 asked_late.2 a0
  obtain ⟨d, e1⟩ := (C64_divergence (asked_regular 3) (by simp) asked_late.1 asked_late.2 a0 a1).1
  obtain ⟨v, W, hn, h1, h2, h3, h4⟩ := a0.returns (asked_regular 3) (by simp) asked_late.1 asked_late.2
  refine ⟨f, v, W, L, L', hn, hL, hL', fun {Ω _ P _ Y} hY => ?_⟩
  exact (C65_proper (l := fun y : Fin 1 → ℝ => [(late, [some (y 0)])]) (L := fun y : Fin 1 → ℝ => L (y 0)) (L' := fun y : Fin 1 → ℝ => L' (y 0)) (asked_regular 3) (asked_tells 3) (fun y => hL (y 0))
    (fun y => hL' (y 0)) (fun y => (asked_full ⟨_, rfl⟩ (y 0)).1) (fun y => (asked_full ⟨_, rfl⟩ (y 0)).2) (fun y => by simp) (List.prefix_refl _) a0 hn h1 h3 hY e e1).1

end Stheno
