import Mathlib.Analysis.Calculus.Deriv.Prod
import Mathlib.LinearAlgebra.SesquilinearForm.Basic
import Verif.Smooth
import Verif.Derive

/-!
# Differentiability in terms of calls

A process of a regular program is differentiable in mean square if and only if what calls of its mean and kernel
return is smooth, in any measure, also in posteriors.
-/

namespace Stheno

open Matrix Filter Topology

section
variable {V : Type} [AddCommGroup V] [Module ℝ V] {S S' : SO V} {f : ℝ → V}

/-- The expectations of a curve of random variables are differentiable, and the covariances have a mixed second
difference quotient. -/
def SO.SmoothCurve (S : SO V) (f : ℝ → V) : Prop := DifferentiableAt ℝ (fun t => S.E (f t)) 0 ∧
  ∃ L, Tendsto (mixed fun s t => S.C (f s) (f t)) (𝓝[≠] 0 ×ˢ 𝓝[≠] 0) (𝓝 L)

theorem SO.Pos.cauchy (h : S.Pos) (u v : V) : S.C u v ^ 2 ≤ S.C u u * S.C v v := by
  have := LinearMap.BilinForm.apply_mul_apply_le_of_forall_zero_le S.C h u v
  rw [S.symm v u] at this
  rwa [sq]

/-- The difference quotient of a curve. -/
noncomputable def quot (f : ℝ → V) (s : ℝ) : V := s⁻¹ • (f s - f 0)

theorem C_quot (S : SO V) (f : ℝ → V) (s t : ℝ) : S.C (quot f s) (quot f t) = mixed (fun s t => S.C (f s) (f t)) (s, t) := by
  simp only [quot, map_smul, map_sub, LinearMap.smul_apply, LinearMap.sub_apply, smul_eq_mul, mixed]
  rw [div_eq_mul_inv, mul_inv]
  ring

theorem C_quot_slope (S : SO V) (f : ℝ → V) (v : V) (s : ℝ) : S.C (quot f s) v = slope (fun t => S.C (f t) v) 0 s := by
  simp only [quot, map_smul, map_sub, LinearMap.smul_apply, LinearMap.sub_apply, smul_eq_mul, slope, vsub_eq_sub, sub_zero]

/-- Covariances with other variables are differentiable. -/
theorem SO.SmoothCurve.cov (h : S.SmoothCurve f) (hS : S.Pos) (v : V) : DifferentiableAt ℝ (fun t => S.C (f t) v) 0 := by
  obtain ⟨-, L, hL⟩ := h
  have hc : Cauchy (map (slope (fun t => S.C (f t) v) 0) (𝓝[≠] (0 : ℝ))) := by
    rw [Metric.cauchy_iff]
    refine ⟨inferInstance, fun ε hε => ?_⟩
    set M := S.C v v + 1 with hM
    have hM0 : 0 < M := by have := hS v; linarith
    have := Metric.tendsto_nhds.1 hL (ε ^ 2 / (4 * M)) (by positivity)
    obtain ⟨A, hA, B, hB, hAB⟩ := Filter.mem_prod_iff.1 this
    refine ⟨slope (fun t => S.C (f t) v) 0 '' (A ∩ B), Filter.image_mem_map (inter_mem hA hB), ?_⟩
    rintro _ ⟨s, hs, rfl⟩ _ ⟨t, ht, rfl⟩
    have key : ∀ a ∈ A ∩ B, ∀ b ∈ A ∩ B, |S.C (quot f a) (quot f b) - L| < ε ^ 2 / (4 * M) := by
      intro a ha b hb
      have := hAB (Set.mk_mem_prod ha.1 hb.2)
      rw [C_quot, ← Real.dist_eq]
      exact this
    rw [Real.dist_eq, ← C_quot_slope, ← C_quot_slope, ← LinearMap.sub_apply, ← map_sub]
    refine abs_lt_of_sq_lt_sq ?_ hε.le
    refine (hS.cauchy _ v).trans_lt ?_
    have e : S.C (quot f s - quot f t) (quot f s - quot f t) = (S.C (quot f s) (quot f s) - L) - (S.C (quot f s) (quot f t) - L) -
        (S.C (quot f t) (quot f s) - L) + (S.C (quot f t) (quot f t) - L) := by
      simp only [map_sub, LinearMap.sub_apply]
      ring
    have h1 := abs_lt.1 (key s hs s hs)
    have h2 := abs_lt.1 (key s hs t ht)
    have h3 := abs_lt.1 (key t ht s hs)
    have h4 := abs_lt.1 (key t ht t ht)
    have hlt : S.C (quot f s - quot f t) (quot f s - quot f t) < ε ^ 2 / M := by
      have : ε ^ 2 / M = 4 * (ε ^ 2 / (4 * M)) := by field_simp
      rw [e, this]
      linarith
    calc _ ≤ S.C (quot f s - quot f t) (quot f s - quot f t) * M :=
          mul_le_mul_of_nonneg_left (by linarith) (hS _)
      _ < ε ^ 2 / M * M := mul_lt_mul_of_pos_right hlt hM0
      _ = ε ^ 2 := div_mul_cancel₀ _ hM0.ne'
  obtain ⟨g, hg⟩ := CompleteSpace.complete hc
  exact (hasDerivAt_iff_tendsto_slope.2 (hg : Tendsto _ _ _)).differentiableAt

theorem mixed_mul {g h : ℝ → ℝ} (hg : DifferentiableAt ℝ g 0) (hh : DifferentiableAt ℝ h 0) :
    ∃ L, Tendsto (mixed fun s t => g s * h t) (𝓝[≠] 0 ×ˢ 𝓝[≠] 0) (𝓝 L) := by
  refine ⟨_, (((hasDerivAt_iff_tendsto_slope.1 hg.hasDerivAt).comp tendsto_fst).mul
    ((hasDerivAt_iff_tendsto_slope.1 hh.hasDerivAt).comp tendsto_snd)).congr fun p => ?_⟩
  simp only [Function.comp, slope, vsub_eq_sub, sub_zero, smul_eq_mul, mixed]
  rw [div_eq_mul_inv, mul_inv]
  ring

theorem mixed_add {K K' : ℝ → ℝ → ℝ} (h : ∃ L, Tendsto (mixed K) (𝓝[≠] 0 ×ˢ 𝓝[≠] 0) (𝓝 L))
    (h' : ∃ L, Tendsto (mixed K') (𝓝[≠] 0 ×ˢ 𝓝[≠] 0) (𝓝 L)) :
    ∃ L, Tendsto (mixed fun s t => K s t + K' s t) (𝓝[≠] 0 ×ˢ 𝓝[≠] 0) (𝓝 L) := by
  obtain ⟨L, hL⟩ := h
  obtain ⟨L', hL'⟩ := h'
  refine ⟨_, (hL.add hL').congr fun p => ?_⟩
  simp only [mixed]
  ring

theorem mixed_smul {K : ℝ → ℝ → ℝ} (c : ℝ) (h : ∃ L, Tendsto (mixed K) (𝓝[≠] 0 ×ˢ 𝓝[≠] 0) (𝓝 L)) :
    ∃ L, Tendsto (mixed fun s t => c * K s t) (𝓝[≠] 0 ×ˢ 𝓝[≠] 0) (𝓝 L) := by
  obtain ⟨L, hL⟩ := h
  refine ⟨_, (hL.const_mul c).congr fun p => ?_⟩
  simp only [mixed]
  ring

theorem mixed_sum {ι : Type} (s : Finset ι) {K : ι → ℝ → ℝ → ℝ}
    (h : ∀ i ∈ s, ∃ L, Tendsto (mixed (K i)) (𝓝[≠] 0 ×ˢ 𝓝[≠] 0) (𝓝 L)) :
    ∃ L, Tendsto (mixed fun a b => ∑ i ∈ s, K i a b) (𝓝[≠] 0 ×ˢ 𝓝[≠] 0) (𝓝 L) := by
  classical
  induction s using Finset.induction_on with
  | empty =>
    refine ⟨0, tendsto_const_nhds.congr fun p => ?_⟩
    simp [mixed]
  | insert i s hi ih =>
    simp only [Finset.sum_insert hi]
    exact mixed_add (h i (by simp)) (ih fun j hj => h j (by simp [hj]))

/-- What observing does to expectations and covariances: `W` is the precision of the observation. -/
structure Revises (S S' : SO V) (zs : List V) (W : Matrix (Fin zs.length) (Fin zs.length) ℝ) : Prop where
  C : ∀ u v, S'.C u v = S.C u v - quadSum S zs W u v
  E : ∃ w : Fin zs.length → ℝ, ∀ u, S'.E u = S.E u + ∑ a, S.C (zs.get a) u * w a
  /-- no variable becomes certain -/
  unit : ∃ U : Matrix (Fin zs.length) (Fin zs.length) ℝ, U * (1 - gram S zs * W) = 1

variable {zs : List V} {W : Matrix (Fin zs.length) (Fin zs.length) ℝ}

theorem quad_mixed (hc : ∀ a, DifferentiableAt ℝ (fun t => S.C (zs.get a) (f t)) 0) :
    ∃ L, Tendsto (mixed fun s t => quadSum S zs W (f s) (f t)) (𝓝[≠] 0 ×ˢ 𝓝[≠] 0) (𝓝 L) := by
  unfold quadSum
  refine mixed_sum _ fun a _ => mixed_sum _ fun b _ => ?_
  exact mixed_mul ((hc a).mul_const (W a b)) (hc b)

theorem Revises.forward (h : Revises S S' zs W) (hS : S.Pos) (hf : S.SmoothCurve f) : S'.SmoothCurve f := by
  have hc : ∀ a, DifferentiableAt ℝ (fun t => S.C (zs.get a) (f t)) 0 := fun a => by
    have := hf.cov hS (zs.get a)
    simpa only [S.symm] using this
  obtain ⟨w, hw⟩ := h.E
  refine ⟨?_, ?_⟩
  · simp only [hw]
    exact hf.1.add (DifferentiableAt.fun_sum fun a _ => (hc a).mul_const _)
  · simp only [h.C, sub_eq_add_neg]
    refine mixed_add hf.2 ?_
    have := mixed_smul (-1) (quad_mixed (W := W) hc)
    simpa using this

theorem Revises.backward (h : Revises S S' zs W) (hS' : S'.Pos) (hf : S'.SmoothCurve f) : S.SmoothCurve f := by
  obtain ⟨U, hU⟩ := h.unit
  have hc' : ∀ a, DifferentiableAt ℝ (fun t => S'.C (zs.get a) (f t)) 0 := fun a => by
    have := hf.cov hS' (zs.get a)
    simpa only [S'.symm] using this
  have ec : ∀ u, (fun a => S'.C (zs.get a) u) = (1 - gram S zs * W) *ᵥ fun a => S.C (zs.get a) u := by
    intro u
    funext a
    rw [h.C, sub_mulVec, one_mulVec, Pi.sub_apply, ← mulVec_mulVec]
    congr 1
    simp only [quadSum, mulVec, dotProduct, gram, Finset.mul_sum]
    refine Finset.sum_congr rfl fun b _ => Finset.sum_congr rfl fun c _ => ?_
    rw [S.symm (zs.get b)]
    ring
  have ec' : ∀ u a, S.C (zs.get a) u = ∑ b, U a b * S'.C (zs.get b) u := by
    intro u a
    have := congrArg (U *ᵥ ·) (ec u)
    simp only [mulVec_mulVec, hU, one_mulVec] at this
    exact (congrFun this a).symm
  have hc : ∀ a, DifferentiableAt ℝ (fun t => S.C (zs.get a) (f t)) 0 := fun a => by
    simp only [ec']
    exact DifferentiableAt.fun_sum fun b _ => (hc' b).const_mul _
  obtain ⟨w, hw⟩ := h.E
  refine ⟨?_, ?_⟩
  · have : (fun t => S.E (f t)) = fun t => S'.E (f t) - ∑ a, S.C (zs.get a) (f t) * w a := by
      funext t; rw [hw]; ring
    rw [this]
    exact hf.1.sub (DifferentiableAt.fun_sum fun a _ => (hc a).mul_const _)
  · have : (fun s t => S.C (f s) (f t)) = fun s t => S'.C (f s) (f t) + quadSum S zs W (f s) (f t) := by
      funext s t; rw [h.C]; ring
    rw [this]
    exact mixed_add hf.2 (quad_mixed hc)

end

/-- Before conditioning. -/
theorem smooth_so0 {f : ℝ → RV} : so0.SmoothCurve f ↔ DifferentiableAt ℝ f 0 := by
  constructor
  · rintro ⟨h1, L, hL⟩
    exact h1.prodMk (differentiable_of_mixed (f := fun t => (f t).2) hL)
  · intro h
    refine ⟨h.fst, _, mixed_of_differentiable (f := fun t => (f t).2) h.snd⟩

/-! ## Observations -/

theorem unit_exact {n : ℕ} {G N : Matrix (Fin n) (Fin n) ℝ} (hN : N.PosDef) (hK : (G + N).PosDef) :
    ∃ U, U * (1 - G * (G + N)⁻¹) = 1 := by
  have uN := hN.isUnit.map detMonoidHom
  have uK := hK.isUnit.map detMonoidHom
  refine ⟨(G + N) * N⁻¹, ?_⟩
  have e : 1 - G * (G + N)⁻¹ = N * (G + N)⁻¹ := by
    rw [sub_eq_iff_eq_add, ← Matrix.add_mul, add_comm N, mul_nonsing_inv _ uK]
  rw [e, Matrix.mul_assoc, ← Matrix.mul_assoc N⁻¹, nonsing_inv_mul _ uN, Matrix.one_mul, mul_nonsing_inv _ uK]

theorem unit_sparse {n : ℕ} {G N B : Matrix (Fin n) (Fin n) ℝ} (hN : N.PosSemidef) (hK : (G + N).PosDef) (hB : B.PosSemidef) :
    ∃ U, U * (1 - G * ((G + N)⁻¹ - (G + N + B)⁻¹)) = 1 := by
  set K := G + N with hKe
  have hA : (K + B).PosDef := hK.add_posSemidef hB
  have uK := hK.isUnit.map detMonoidHom
  have uA := hA.isUnit.map detMonoidHom
  have hKs : (K⁻¹)ᵀ = K⁻¹ := by rw [transpose_nonsing_inv, ← conjTranspose_eq_transpose_of_trivial, hK.1.eq]
  set M := K + N * K⁻¹ * B with hM
  have e : (1 - G * (K⁻¹ - (K + B)⁻¹)) * (K + B) = M := by
    have hG : G = K - N := by rw [hKe]; abel
    rw [Matrix.sub_mul, Matrix.one_mul, Matrix.mul_assoc, Matrix.sub_mul, nonsing_inv_mul _ uA, Matrix.mul_add, nonsing_inv_mul _ uK,
      add_sub_cancel_left, hG, Matrix.sub_mul, ← Matrix.mul_assoc K, mul_nonsing_inv _ uK, Matrix.one_mul, hM, Matrix.mul_assoc]
    abel
  have uM : IsUnit M := by
    refine Matrix.mulVec_injective_iff_isUnit.1 ?_
    rw [← Matrix.coe_mulVecLin, injective_iff_map_eq_zero]
    intro y hy
    rw [Matrix.mulVecLin_apply, hM, add_mulVec] at hy
    have h1 : y = -(K⁻¹ *ᵥ (N *ᵥ (K⁻¹ *ᵥ (B *ᵥ y)))) := by
      have := congrArg (K⁻¹ *ᵥ ·) hy
      simp only [mulVec_add, mulVec_mulVec, nonsing_inv_mul _ uK, one_mulVec, mulVec_zero] at this
      rw [eq_neg_iff_add_eq_zero]
      simpa only [mulVec_mulVec, Matrix.mul_assoc] using this
    have h2 : 0 ≤ y ⬝ᵥ (B *ᵥ y) := hB.dotProduct_mulVec_nonneg y
    have h3 : (B *ᵥ y) ⬝ᵥ y ≤ 0 := by
      have h4 := hN.dotProduct_mulVec_nonneg (K⁻¹ *ᵥ (B *ᵥ y))
      have : (B *ᵥ y) ⬝ᵥ (K⁻¹ *ᵥ (N *ᵥ (K⁻¹ *ᵥ (B *ᵥ y)))) = star (K⁻¹ *ᵥ (B *ᵥ y)) ⬝ᵥ N *ᵥ (K⁻¹ *ᵥ (B *ᵥ y)) := by
        rw [dotProduct_mulVec, ← mulVec_transpose, hKs]; rfl
      conv_lhs => rw [h1]
      rw [dotProduct_neg]
      rw [← this] at h4
      have h5 : (B *ᵥ -(K⁻¹ *ᵥ (N *ᵥ (K⁻¹ *ᵥ (B *ᵥ y))))) = B *ᵥ y := by rw [← h1]
      rw [h5]
      linarith
    have h4 : star y ⬝ᵥ (B *ᵥ y) = 0 := le_antisymm (by rw [dotProduct_comm] at h3; exact h3) h2
    have h5 : B *ᵥ y = 0 := (hB.dotProduct_mulVec_zero_iff y).1 h4
    rw [h1, h5]
    simp
  refine ⟨(K + B) * M⁻¹, ?_⟩
  have uM' := uM.map detMonoidHom
  have e' : 1 - G * (K⁻¹ - (K + B)⁻¹) = M * (K + B)⁻¹ := by
    rw [← e, Matrix.mul_assoc, mul_nonsing_inv _ uA, Matrix.mul_one]
  rw [e', Matrix.mul_assoc, ← Matrix.mul_assoc M⁻¹, nonsing_inv_mul _ uM', Matrix.one_mul, mul_nonsing_inv _ uA]

section
variable {V : Type} [AddCommGroup V] [Module ℝ V] {S S' : SO V}

theorem IsUpdate.revises {zs : List V} {noise : Mat} {y : List ℝ} (h : IsUpdate S S' zs noise y)
    (hp : (noisyGram S zs noise).PosDef) (hy : y.length = zs.length) (hn : (noise.sq zs.length).PosDef) :
    Revises S S' zs (noisyGram S zs noise)⁻¹ :=
  ⟨h.C hp, ⟨_, h.E hp hy⟩, unit_exact hn hp⟩

theorem IsSparseUpdate.revises {zs xs : List V} {o : PseudoData} (h : IsSparseUpdate S S' zs xs o) (hS : S.Pos)
    (hp : (noisyGram S zs o.noiseZ).PosDef) (hy : o.y.length = xs.length) (hz : (o.noiseZ.sq zs.length).PosSemidef)
    (hx : ∀ j < xs.length, 0 ≤ o.noiseX.mat.e j j) : ∃ W, Revises S S' zs W := by
  refine ⟨_, fun u v => ?_, ⟨_, h.E hp hy⟩, unit_sparse hz hp
    (B := crossGram S zs xs * (diagonal (sparseNoise o.method (noisyGram S zs o.noiseZ) (crossGram S zs xs)
      (fun j => S.C (xs.get j) (xs.get j)) (fun j => o.noiseX.mat.e j j)))⁻¹ * (crossGram S zs xs)ᵀ) ?_⟩
  · rw [h.C hp, sub_add]
    congr 1
    simp only [quadSum, ← Finset.sum_sub_distrib]
    refine Finset.sum_congr rfl fun a _ => Finset.sum_congr rfl fun b _ => ?_
    rw [Matrix.sub_apply]
    simp only [sparseA, noisyGram]
    ring
  · have hD : (diagonal (sparseNoise o.method (noisyGram S zs o.noiseZ) (crossGram S zs xs)
        (fun j => S.C (xs.get j) (xs.get j)) (fun j => o.noiseX.mat.e j j)))⁻¹.PosSemidef :=
      PosSemidef.inv (PosSemidef.diagonal (Pi.le_def.2 fun j => (hx j j.2).trans (sparseNoise_of hS h.zr h.zc hz hp j)))
    have := hD.mul_mul_conjTranspose_same (crossGram S zs xs)
    rwa [conjTranspose_eq_transpose_of_trivial] at this

end

/-! ## Programs -/

section
variable {G : Dom} {ops : List Op} {p : PId} {d : ℕ} {x : Pt}

/-- A curve of random variables is differentiable in mean square if and only if its expectations and covariances are
smooth, in any measure. -/
theorem Regular.smooth_curve (h : Regular G ops) (hn : Noisy ops) (m : MId) (f : ℝ → RV) :
    ((reading ops).S m).SmoothCurve f ↔ DifferentiableAt ℝ f 0 := by
  have iv := Inv.reach ops
  have hl := h.reads.laws
  induction m using Nat.strong_induction_on with
  | _ m ih =>
    cases ha : (specOps ops {}).ms[m]? with
    | none => rw [canon_S_none (by rw [ha]; rfl)]; exact smooth_so0
    | some a =>
      cases hu : a.base with
      | none => rw [canon_S_none (by rw [ha]; exact hu)]; exact smooth_so0
      | some u =>
        obtain ⟨-, hP⟩ := hl.post m a u ha hu
        refine Iff.trans ?_ (ih u.prior ((iv.wf.ms m a ha).base_lt u hu))
        obtain ⟨before, after, e, hm, _, _⟩ := base_from ops m a u ha hu
        have hfo := h.firm before u.prior u.obs after e hm
        have hno := hn u.prior u.obs (by rw [e]; simp)
        have ho := h.obs before u.prior u.obs after e hm
        have key : ∀ zs W, Revises ((reading ops).S u.prior) ((reading ops).S m) zs W →
            (((reading ops).S m).SmoothCurve f ↔ ((reading ops).S u.prior).SmoothCurve f) :=
          fun zs W hR => ⟨hR.backward (h.pos m), hR.forward (h.pos u.prior)⟩
        cases hob : u.obs with
        | exact p z noise y =>
          rw [hob] at hP hfo hno ho e
          rcases hP with ⟨_, hS⟩ | ⟨_, zs, hz, hu⟩
          · rw [hS]
          · obtain ⟨hp, hy⟩ := hfo zs hz
            obtain ⟨zs', hz', lz⟩ := h.observed_value e hm ho.2.2.2
            rw [hz'] at hz; cases hz
            exact key _ _ (hu.revises hp hy (by rw [lz]; exact hno))
        | pseudo pu p o =>
          rw [hob] at hP hfo hno ho e
          obtain ⟨zs, xs, hz, hx, hu⟩ := hP
          obtain ⟨hp, hy⟩ := hfo zs xs hz hx
          obtain ⟨zs', hz', lz⟩ := h.observed_value e hm ho.2.2.1
          obtain ⟨xs', hx', lx⟩ := h.observed_value e hm ho.2.2.2
          rw [hz'] at hz; cases hz
          rw [hx'] at hx; cases hx
          obtain ⟨W, hW⟩ := hu.revises (h.pos _) hp hy (by rw [lz]; exact hno.1) (fun j hj => (hno.2 j (hj.trans_eq lx)).le)
          exact key _ _ hW

/-- What calls of the mean and the kernel of process `p` return on the line through `x` in direction `d` is smooth at `x`: the
mean is differentiable, and the kernel has a mixed second difference quotient. -/
def SmoothCalls (w : World) (m : MId) (p : PId) (d : ℕ) (x : Pt) : Prop := ∃ (u : ℝ → ℝ) (K : ℝ → ℝ → ℝ) (L : ℝ),
  (∀ t, MeanCall w m p (.num [bump d t x]) [u t]) ∧
  (∀ s t, ∃ A, KernelCall w m p p (.num [bump d s x]) (.num [bump d t x]) A ∧ A.e 0 0 = K s t) ∧
  DifferentiableAt ℝ u 0 ∧ Tendsto (mixed K) (𝓝[≠] 0 ×ˢ 𝓝[≠] 0) (𝓝 L)

/-- A process is differentiable in mean square if and only if what calls return is smooth. -/
theorem Regular.smooth_calls (h : Regular G ops) (hn : Noisy ops) {m : MId} (hp : Attached (runOps ops {}) m p)
    (hx : ∀ t, G p (bump d t x)) : SmoothCalls (runOps ops {}) m p d x ↔
      DifferentiableAt ℝ (fun t => pointOf ((reading ops).F m p) (bump d t x)) 0 := by
  rw [← h.smooth_curve hn m]
  set f := fun t => pointOf ((reading ops).F m p) (bump d t x) with hf
  have hF : ∀ t, (reading ops).F m p (.num [bump d t x]) = some [f t] := fun t => by
    obtain ⟨vs, hv, lv⟩ := h.value hp (.one (hx t))
    obtain ⟨v, rfl⟩ := List.length_eq_one_iff.1 lv
    rw [hv, hf]; simp [pointOf, hv]
  have hu : ∀ t (v : List ℝ), MeanCall (runOps ops {}) m p (.num [bump d t x]) v → v = [((reading ops).S m).E (f t)] :=
    fun t v hv => h.mean_eq hp (.one (hx t)) hv (hF t)
  have hK : ∀ s t A, KernelCall (runOps ops {}) m p p (.num [bump d s x]) (.num [bump d t x]) A →
      A.e 0 0 = ((reading ops).S m).C (f s) (f t) := fun s t A hA =>
    (h.kernel_eq hp hp (.one (hx s)) (.one (hx t)) hA (hF s) (hF t)).e 0 Nat.one_pos 0 Nat.one_pos
  constructor
  · rintro ⟨u, K, L, h1, h2, h3, h4⟩
    have eu : u = fun t => ((reading ops).S m).E (f t) := funext fun t => by simpa using hu t _ (h1 t)
    have eK : K = fun s t => ((reading ops).S m).C (f s) (f t) := funext fun s => funext fun t => by
      obtain ⟨A, hA, e⟩ := h2 s t
      rw [← e, hK s t A hA]
    rw [eu] at h3
    rw [eK] at h4
    exact ⟨h3, L, h4⟩
  · rintro ⟨h3, L, h4⟩
    refine ⟨_, _, L, fun t => ?_, fun s t => ?_, h3, h4⟩
    · obtain ⟨v, hv, -⟩ := h.mean hp (.one (hx t))
      rw [hu t v hv] at hv
      exact hv
    · obtain ⟨A, hA, -⟩ := h.kernel hp hp (.one (hx s)) (.one (hx t))
      exact ⟨A, hA, hK s t A hA⟩

end

end Stheno
