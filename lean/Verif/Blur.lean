import Mathlib.Analysis.SpecialFunctions.Log.Basic
import Mathlib.Topology.Instances.Matrix
import Verif.Chain

/-!
# Observations with ever more noise

As the noise of some of the observations goes to infinity, expectations and covariances go to those given the others.
-/

namespace Stheno

set_option linter.unusedSectionVars false

open Matrix Filter Topology

section
variable {ι κ : Type} [Fintype ι] [Fintype κ] [DecidableEq ι] [DecidableEq κ]

theorem tendsto_scaled (S : Matrix κ κ ℝ) : Tendsto (fun t : ℝ => t⁻¹ • S + 1) atTop (𝓝 1) := by
  have h : Tendsto (fun t : ℝ => t⁻¹ • S + 1) atTop (𝓝 ((0 : ℝ) • S + 1)) := (tendsto_inv_atTop_zero.smul_const S).add_const 1
  simpa using h

theorem tendsto_scaled_det (S : Matrix κ κ ℝ) : Tendsto (fun t : ℝ => (t⁻¹ • S + 1).det) atTop (𝓝 1) := by
  have h := ((continuous_id.matrix_det).tendsto (1 : Matrix κ κ ℝ)).comp (tendsto_scaled S)
  rw [id, det_one] at h
  exact h

theorem add_smul_one (S : Matrix κ κ ℝ) {t : ℝ} (ht : t ≠ 0) : S + t • 1 = t • (t⁻¹ • S + 1) := by
  rw [smul_add, smul_smul, mul_inv_cancel₀ ht, one_smul]

theorem unit_scaled (S : Matrix κ κ ℝ) : ∀ᶠ t : ℝ in atTop, 0 < t ∧ 0 < (t⁻¹ • S + 1).det ∧ (S + t • 1).det = t ^ Fintype.card κ * (t⁻¹ • S + 1).det := by
  filter_upwards [eventually_gt_atTop 0, (tendsto_scaled_det S).eventually (lt_mem_nhds one_pos)] with t ht hd
  exact ⟨ht, hd, by rw [add_smul_one S ht.ne', det_smul]⟩

/-- The inverse of a matrix with more and more on the diagonal. -/
theorem tendsto_inv_zero (S : Matrix κ κ ℝ) : Tendsto (fun t : ℝ => (S + t • 1)⁻¹) atTop (𝓝 0) := by
  have hd := tendsto_scaled_det S
  have ha : Tendsto (fun t : ℝ => (t⁻¹ • S + 1).adjugate) atTop (𝓝 (1 : Matrix κ κ ℝ).adjugate) :=
    ((continuous_id.matrix_adjugate).tendsto (1 : Matrix κ κ ℝ)).comp (tendsto_scaled S)
  have hi : Tendsto (fun t : ℝ => t⁻¹ • ((t⁻¹ • S + 1).det⁻¹ • (t⁻¹ • S + 1).adjugate)) atTop (𝓝 0) := by
    have := tendsto_inv_atTop_zero.smul ((hd.inv₀ one_ne_zero).smul ha)
    simpa using this
  refine hi.congr' ?_
  filter_upwards [unit_scaled S] with t ht
  have hu : IsUnit (t⁻¹ • S + 1).det := isUnit_iff_ne_zero.2 ht.2.1.ne'
  rw [add_smul_one S ht.1.ne']
  refine (Matrix.inv_eq_right_inv ?_).symm
  rw [smul_mul_smul_comm, mul_inv_cancel₀ ht.1.ne', one_smul, mul_smul_comm, mul_adjugate, smul_smul, inv_mul_cancel₀ ht.2.1.ne', one_smul]

/-- The logarithm of its determinant. -/
theorem tendsto_log_det (S : Matrix κ κ ℝ) : Tendsto (fun t : ℝ => Real.log (S + t • 1).det - Fintype.card κ * Real.log t) atTop (𝓝 0) := by
  have h := ((Real.continuousAt_log one_ne_zero).tendsto).comp (tendsto_scaled_det S)
  rw [Real.log_one] at h
  refine h.congr' ?_
  filter_upwards [unit_scaled S] with t ht
  rw [ht.2.2, Real.log_mul (pow_pos ht.1 _).ne' ht.2.1.ne', Real.log_pow, Function.comp_apply]
  ring

/-- Solving with more and more on the diagonal of one block. -/
theorem tendsto_solve {A : Matrix ι ι ℝ} (B : Matrix ι κ ℝ) (D : Matrix κ κ ℝ) (hA : IsUnit A.det) (c : ι → ℝ) (d : κ → ℝ) :
    Tendsto (fun t : ℝ => (fromBlocks A B Bᵀ (D + t • 1))⁻¹ *ᵥ Sum.elim c d) atTop (𝓝 (Sum.elim (A⁻¹ *ᵥ c) 0)) := by
  have e : ∀ t : ℝ, D + t • 1 - Bᵀ * A⁻¹ * B = (D - Bᵀ * A⁻¹ * B) + t • 1 := fun t => by abel
  have hq : Tendsto (fun t : ℝ => ((D - Bᵀ * A⁻¹ * B) + t • 1)⁻¹ *ᵥ (d - Bᵀ *ᵥ (A⁻¹ *ᵥ c))) atTop (𝓝 0) := by
    have := ((continuous_id.matrix_mulVec (continuous_const (y := d - Bᵀ *ᵥ (A⁻¹ *ᵥ c)))).tendsto (0 : Matrix κ κ ℝ)).comp (tendsto_inv_zero (D - Bᵀ * A⁻¹ * B))
    rw [id, zero_mulVec] at this
    exact this
  have hp : Tendsto (fun t : ℝ => A⁻¹ *ᵥ (c - B *ᵥ (((D - Bᵀ * A⁻¹ * B) + t • 1)⁻¹ *ᵥ (d - Bᵀ *ᵥ (A⁻¹ *ᵥ c))))) atTop (𝓝 (A⁻¹ *ᵥ c)) := by
    have hc : Continuous fun x : κ → ℝ => A⁻¹ *ᵥ (c - B *ᵥ x) :=
      (continuous_const (y := A⁻¹)).matrix_mulVec ((continuous_const (y := c)).sub ((continuous_const (y := B)).matrix_mulVec continuous_id))
    have := (hc.tendsto 0).comp hq
    rw [mulVec_zero, sub_zero] at this
    exact this
  have hs : Tendsto (fun t : ℝ => Sum.elim (A⁻¹ *ᵥ (c - B *ᵥ (((D - Bᵀ * A⁻¹ * B) + t • 1)⁻¹ *ᵥ (d - Bᵀ *ᵥ (A⁻¹ *ᵥ c)))))
      (((D - Bᵀ * A⁻¹ * B) + t • 1)⁻¹ *ᵥ (d - Bᵀ *ᵥ (A⁻¹ *ᵥ c)))) atTop (𝓝 (Sum.elim (A⁻¹ *ᵥ c) 0)) := by
    refine tendsto_pi_nhds.2 fun i => ?_
    rcases i with i | i
    · exact tendsto_pi_nhds.1 hp i
    · exact tendsto_pi_nhds.1 hq i
  refine hs.congr' ?_
  filter_upwards [unit_scaled (D - Bᵀ * A⁻¹ * B)] with t ht
  rw [block_solve hA (by rw [e, ht.2.2]; exact isUnit_iff_ne_zero.2 (mul_pos (pow_pos ht.1 _) ht.2.1).ne'), e]

end

section
variable {V : Type} [AddCommGroup V] [Module ℝ V]

/-- The values `zs0` are those of `zs` at some of the indices, with the noise and data there. -/
structure Retains (zs : List V) (N : Mat) (y : List ℝ) (zs0 : List V) (N0 : Mat) (y0 : List ℝ) (f : Fin zs0.length → Fin zs.length) : Prop where
  inj : Function.Injective f
  z : ∀ i, zs.get (f i) = zs0.get i
  N : ∀ i j, N.e (f i) (f j) = N0.e i j
  y : ∀ i, y.getD (f i) 0 = y0.getD i 0

variable {S S0 : SO V} {T : ℝ → SO V} {zs zs0 : List V} {N N0 : Mat} {N' : ℝ → Mat} {y y0 : List ℝ} {f : Fin zs0.length → Fin zs.length}

open Classical in
/-- All indices: those that are kept and the others. -/
noncomputable def Retains.split (h : Retains zs N y zs0 N0 y0 f) : Fin zs0.length ⊕ {i // i ∉ Set.range f} ≃ Fin zs.length :=
  ((Equiv.ofInjective f h.inj).sumCongr (Equiv.refl _)).trans (Equiv.Set.sumCompl (Set.range f))

theorem Retains.split_inl (h : Retains zs N y zs0 N0 y0 f) (i : Fin zs0.length) : h.split (.inl i) = f i := by
  exact Equiv.Set.sumCompl_apply_inl (Set.range f) ⟨f i, ⟨i, rfl⟩⟩

theorem Retains.split_inr (h : Retains zs N y zs0 N0 y0 f) (i : {i // i ∉ Set.range f}) : h.split (.inr i) = i := by
  exact Equiv.Set.sumCompl_apply_inr (Set.range f) i

open Classical in
/-- The covariances of the observations in blocks. -/
theorem Retains.gram (h : Retains zs N y zs0 N0 y0 f)
    (hN : ∀ t (i j : Fin zs.length), (N' t).e i j = N.e i j + if i = j ∧ i ∉ Set.range f then t else 0)
    (hp : ∀ᶠ t in atTop, (noisyGram S zs (N' t)).PosDef) :
    ∃ (B : Matrix (Fin zs0.length) {i // i ∉ Set.range f} ℝ) (D : Matrix {i // i ∉ Set.range f} {i // i ∉ Set.range f} ℝ),
      ∀ t, (noisyGram S zs (N' t)).submatrix h.split h.split = fromBlocks (noisyGram S zs0 N0) B Bᵀ (D + t • 1) := by
  obtain ⟨t0, h0⟩ := hp.exists
  have sym : ∀ i j, i ≠ j → S.C (zs.get i) (zs.get j) + N.e i j = S.C (zs.get j) (zs.get i) + N.e j i := by
    intro i j hij
    have := h0.isHermitian.apply i j
    simp only [star_trivial] at this
    have e : ∀ i j, noisyGram S zs (N' t0) i j = S.C (zs.get i) (zs.get j) + (N' t0).e i j := fun _ _ => rfl
    rw [e, e, hN, hN, if_neg (fun h => hij h.1.symm), if_neg (fun h => hij h.1), add_zero, add_zero] at this
    exact this.symm
  refine ⟨fun i j => S.C (zs.get (f i)) (zs.get j) + N.e (f i) j, fun i j => S.C (zs.get i) (zs.get j) + N.e (i : Fin zs.length) (j : Fin zs.length), fun t => ?_⟩
  ext a b
  have e : ∀ i j, noisyGram S zs (N' t) i j = S.C (zs.get i) (zs.get j) + (N.e i j + if i = j ∧ i ∉ Set.range f then t else 0) := fun i j => by
    rw [← hN]; rfl
  rw [submatrix_apply, e]
  rcases a with a | a <;> rcases b with b | b
  · rw [h.split_inl, h.split_inl, if_neg (fun h => h.2 ⟨a, rfl⟩), add_zero, h.z, h.z, h.N]
    rfl
  · rw [h.split_inl, h.split_inr, if_neg (fun h => h.2 ⟨a, rfl⟩), add_zero]
    rfl
  · rw [h.split_inl, h.split_inr, if_neg (fun h => h.2 |>.elim (by rw [h.1]; exact ⟨b, rfl⟩)), add_zero]
    exact sym _ _ fun h => a.2 (h ▸ ⟨b, rfl⟩)
  · rw [h.split_inr, h.split_inr, ← add_assoc]
    show _ = _ + t * (1 : Matrix {i // i ∉ Set.range f} {i // i ∉ Set.range f} ℝ) a b
    rw [one_apply]
    congr 1
    by_cases hab : a = b
    · rw [if_pos ⟨congrArg _ hab, a.2⟩, if_pos hab, mul_one]
    · rw [if_neg (fun h => hab (Subtype.ext h.1)), if_neg hab, mul_zero]

open Classical in
/-- **Infinite noise.** Expectations and covariances given observations, some with more and more noise, go to those given the others. -/
theorem IsUpdate.blurred (h0 : IsUpdate S S0 zs0 N0 y0) (p0 : (noisyGram S zs0 N0).PosDef) (l0 : y0.length = zs0.length) (hl : y.length = zs.length)
    (hT : ∀ᶠ t in atTop, IsUpdate S (T t) zs (N' t) y ∧ (noisyGram S zs (N' t)).PosDef) (h : Retains zs N y zs0 N0 y0 f)
    (hN : ∀ t (i j : Fin zs.length), (N' t).e i j = N.e i j + if i = j ∧ i ∉ Set.range f then t else 0) :
    (∀ u, Tendsto (fun t => (T t).E u) atTop (𝓝 (S0.E u))) ∧ ∀ u v, Tendsto (fun t => (T t).C u v) atTop (𝓝 (S0.C u v)) := by
  obtain ⟨B, D, hg⟩ := h.gram hN (hT.mono fun t h => h.2)
  have hA : IsUnit (noisyGram S zs0 N0).det := isUnit_iff_ne_zero.2 p0.det_pos.ne'
  have hc : ∀ u, S.cv (zs.get ∘ h.split) u = Sum.elim (S.cv zs0.get u) (fun i : {i // i ∉ Set.range f} => S.C (zs.get i) u) := by
    intro u
    funext a
    rcases a with a | a
    · show S.C (zs.get (h.split (.inl a))) u = S.C (zs0.get a) u
      rw [h.split_inl, h.z]
    · show S.C (zs.get (h.split (.inr a))) u = _
      rw [h.split_inr]
      rfl
  have key : ∀ (u : V) c d, Tendsto (fun t : ℝ => S.cv (zs.get ∘ h.split) u ⬝ᵥ ((fromBlocks (noisyGram S zs0 N0) B Bᵀ (D + t • 1))⁻¹ *ᵥ Sum.elim c d)) atTop
      (𝓝 (S.cv zs0.get u ⬝ᵥ ((noisyGram S zs0 N0)⁻¹ *ᵥ c))) := by
    intro u c d
    have := (((continuous_const (y := S.cv (zs.get ∘ h.split) u)).dotProduct continuous_id).tendsto _).comp (tendsto_solve B D hA c d)
    rw [id, hc, sumElim_dotProduct_sumElim, dotProduct_zero, add_zero] at this
    rw [hc]
    exact this
  constructor
  · intro u
    let r : Fin zs.length → ℝ := fun b => y.getD b 0 - S.E (zs.get b)
    have hr : r ∘ h.split = Sum.elim (fun b : Fin zs0.length => y0.getD b 0 - S.E (zs0.get b)) (fun i : {i // i ∉ Set.range f} => r i) := by
      funext a
      rcases a with a | a
      · show y.getD (h.split (.inl a)) 0 - S.E (zs.get (h.split (.inl a))) = _
        rw [h.split_inl, h.z, h.y]
        rfl
      · show r (h.split (.inr a)) = _
        rw [h.split_inr]
        rfl
    rw [h0.E_upd p0 l0]
    refine ((key u (fun b : Fin zs0.length => y0.getD b 0 - S.E (zs0.get b)) (fun i : {i // i ∉ Set.range f} => r i)).const_add (S.E u)).congr' ?_
    filter_upwards [hT] with t ht
    rw [ht.1.E_upd ht.2 hl, ← SO.updE_reindex S _ h.split, hg, hr]
    rfl
  · intro u v
    rw [h0.C_upd p0]
    refine ((key u (S.cv zs0.get v) (fun i : {i // i ∉ Set.range f} => S.C (zs.get i) v)).const_sub (S.C u v)).congr' ?_
    filter_upwards [hT] with t ht
    rw [ht.1.C_upd ht.2, ← SO.updC_reindex S _ h.split, hg, SO.updC, hc v]

open Classical in
/-- The log-density of observations, some with more and more noise, goes to that of the others, after correcting for the density of the noise. -/
theorem Retains.logpdf (p0 : (noisyGram S zs0 N0).PosDef) (hp : ∀ᶠ t in atTop, (noisyGram S zs (N' t)).PosDef) (h : Retains zs N y zs0 N0 y0 f)
    (hN : ∀ t (i j : Fin zs.length), (N' t).e i j = N.e i j + if i = j ∧ i ∉ Set.range f then t else 0) {k : ℕ} (hk : zs.length = zs0.length + k) :
    Tendsto (fun t => (obsNormal S zs (N' t)).logpdfFull (fun i => y.getD i 0) + k / 2 * Real.log (2 * Real.pi * t)) atTop
      (𝓝 ((obsNormal S zs0 N0).logpdfFull fun i => y0.getD i 0)) := by
  obtain ⟨B, D, hg⟩ := h.gram hN hp
  have hA : IsUnit (noisyGram S zs0 N0).det := isUnit_iff_ne_zero.2 p0.det_pos.ne'
  have hcard : Fintype.card {i // i ∉ Set.range f} = k := by
    have := Fintype.card_congr h.split
    rw [Fintype.card_sum, Fintype.card_fin, Fintype.card_fin] at this
    omega
  let r : Fin zs.length → ℝ := fun b => y.getD b 0 - S.E (zs.get b)
  let r0 : Fin zs0.length → ℝ := fun b => y0.getD b 0 - S.E (zs0.get b)
  have hr : r ∘ h.split = Sum.elim r0 (fun i : {i // i ∉ Set.range f} => r i) := by
    funext a
    rcases a with a | a
    · show y.getD (h.split (.inl a)) 0 - S.E (zs.get (h.split (.inl a))) = _
      rw [h.split_inl, h.z, h.y]
      rfl
    · show r (h.split (.inr a)) = _
      rw [h.split_inr]
      rfl
  have hq : Tendsto (fun t : ℝ => (r ∘ h.split) ⬝ᵥ ((fromBlocks (noisyGram S zs0 N0) B Bᵀ (D + t • 1))⁻¹ *ᵥ (r ∘ h.split))) atTop
      (𝓝 (r0 ⬝ᵥ ((noisyGram S zs0 N0)⁻¹ *ᵥ r0))) := by
    have := (((continuous_const (y := r ∘ h.split)).dotProduct continuous_id).tendsto _).comp (tendsto_solve B D hA r0 (fun i : {i // i ∉ Set.range f} => r i))
    rw [id, hr, sumElim_dotProduct_sumElim, dotProduct_zero, add_zero] at this
    rw [hr]
    exact this
  have hd := tendsto_log_det (D - Bᵀ * (noisyGram S zs0 N0)⁻¹ * B)
  rw [hcard] at hd
  have key := (((hd.const_add (Real.log (noisyGram S zs0 N0).det + zs0.length * Real.log (2 * Real.pi))).add hq).neg).div_const 2
  rw [add_zero] at key
  refine key.congr' ?_
  filter_upwards [unit_scaled (D - Bᵀ * (noisyGram S zs0 N0)⁻¹ * B)] with t ht
  have e : D + t • 1 - Bᵀ * (noisyGram S zs0 N0)⁻¹ * B = (D - Bᵀ * (noisyGram S zs0 N0)⁻¹ * B) + t • 1 := by abel
  have hpos : 0 < ((D - Bᵀ * (noisyGram S zs0 N0)⁻¹ * B) + t • 1).det := by
    rw [ht.2.2]
    exact mul_pos (pow_pos ht.1 _) ht.2.1
  have hdet : (noisyGram S zs (N' t)).det = (noisyGram S zs0 N0).det * ((D - Bᵀ * (noisyGram S zs0 N0)⁻¹ * B) + t • 1).det := by
    rw [← det_submatrix_equiv_self h.split, hg, det_schur _ _ _ hA, e]
  have hquad : (r ∘ h.split) ⬝ᵥ ((fromBlocks (noisyGram S zs0 N0) B Bᵀ (D + t • 1))⁻¹ *ᵥ (r ∘ h.split)) = r ⬝ᵥ ((noisyGram S zs (N' t))⁻¹ *ᵥ r) := by
    rw [← hg, inv_submatrix_equiv, submatrix_mulVec_equiv, comp_equiv_dotProduct_comp_equiv, Function.comp_assoc, Equiv.self_comp_symm, Function.comp_id]
  rw [hquad]
  show _ = -(Real.log (noisyGram S zs (N' t)).det + zs.length * Real.log (2 * Real.pi) + r ⬝ᵥ ((noisyGram S zs (N' t))⁻¹ *ᵥ r)) / 2 + _
  rw [hdet, Real.log_mul p0.det_pos.ne' hpos.ne', Real.log_mul (by positivity) ht.1.ne', show (zs.length : ℝ) = zs0.length + k by exact_mod_cast hk]
  ring

end

end Stheno
