import Mathlib.Data.List.GetD
import Verif.Join

/-!
# Observations in other units

Observing random variables with noise is observing them multiplied by nonzero numbers and with numbers added, if noise and data are
multiplied and shifted as well.
-/

namespace Stheno

open Matrix

section
variable {V : Type} [AddCommGroup V] [Module ℝ V]

/-- Observations `zs'` with noise `N'` and data `y'` are the observations `zs` with noise `N` and data `y` in other units: each is multiplied by a number
that is not zero, and a number is added. `J` is the logarithm of the volume of a unit cube in the other units. -/
structure Rescaled (one : V) (J : ℝ) (zs : List V) (N : Mat) (y : List ℝ) (zs' : List V) (N' : Mat) (y' : List ℝ) : Prop where
  len : zs'.length = zs.length
  units : ∃ d a : ℕ → ℝ, (∀ i, d i ≠ 0) ∧ J = ∑ i ∈ Finset.range zs.length, Real.log |d i| ∧
    (∀ i < zs.length, zs'.getD i 0 = d i • zs.getD i 0 + a i • one) ∧
    (∀ i < zs.length, ∀ j < zs.length, N'.e i j = d i * d j * N.e i j) ∧ ∀ i < zs.length, y'.getD i 0 = d i * y.getD i 0 + a i

variable {S S' Sj : SO V} {one : V} {J J' : ℝ} {zs zs' zs'' : List V} {N N' N'' : Mat} {y y' y'' : List ℝ}

theorem Rescaled.refl : Rescaled one 0 zs N y zs N y :=
  ⟨rfl, fun _ => 1, fun _ => 0, fun _ => one_ne_zero, by simp, fun _ _ => by simp, fun _ _ _ _ => by simp, fun _ _ => by simp⟩

theorem Rescaled.symm (h : Rescaled one J zs N y zs' N' y') : Rescaled one (-J) zs' N' y' zs N y := by
  obtain ⟨l, d, a, h0, hJ, h1, h2, h3⟩ := h
  refine ⟨l.symm, fun i => (d i)⁻¹, fun i => -(d i)⁻¹ * a i, fun i => inv_ne_zero (h0 i), ?_, fun i hi => ?_, fun i hi j hj => ?_, fun i hi => ?_⟩
  · rw [hJ, l, ← Finset.sum_neg_distrib]
    simp [abs_inv, Real.log_inv]
  · rw [h1 i (l ▸ hi), smul_add, smul_smul, inv_mul_cancel₀ (h0 i), one_smul, smul_smul, add_assoc, ← add_smul]
    simp
  · rw [h2 i (l ▸ hi) j (l ▸ hj)]
    have := h0 i
    have := h0 j
    field_simp
  · rw [h3 i (l ▸ hi)]
    have := h0 i
    field_simp
    ring

theorem Rescaled.trans (h : Rescaled one J zs N y zs' N' y') (h' : Rescaled one J' zs' N' y' zs'' N'' y'') : Rescaled one (J + J') zs N y zs'' N'' y'' := by
  obtain ⟨l, d, a, h0, hJ, h1, h2, h3⟩ := h
  obtain ⟨l', d', a', h0', hJ', h1', h2', h3'⟩ := h'
  refine ⟨l'.trans l, fun i => d' i * d i, fun i => d' i * a i + a' i, fun i => mul_ne_zero (h0' i) (h0 i), ?_, fun i hi => ?_, fun i hi j hj => ?_, fun i hi => ?_⟩
  · rw [hJ, hJ', l, ← Finset.sum_add_distrib]
    refine Finset.sum_congr rfl fun i _ => ?_
    rw [abs_mul, Real.log_mul (abs_ne_zero.2 (h0' i)) (abs_ne_zero.2 (h0 i)), add_comm]
  · rw [h1' i (l.symm ▸ hi), h1 i hi, smul_add, smul_smul, smul_smul, add_smul, add_assoc]
  · rw [h2' i (l.symm ▸ hi) j (l.symm ▸ hj), h2 i hi j hj]
    ring
  · rw [h3' i (l.symm ▸ hi), h3 i hi]
    ring

theorem Rescaled.append {ws ws' : List V} {M M' : Mat} {w w' : List ℝ} (h : Rescaled one J zs N y zs' N' y') (k : Rescaled one J' ws M w ws' M' w')
    (hr : N.r = zs.length) (hc : N.c = zs.length) (hr' : N'.r = zs'.length) (hc' : N'.c = zs'.length) (hy : y.length = zs.length) (hy' : y'.length = zs'.length) :
    Rescaled one (J + J') (zs ++ ws) (N.dsum M) (y ++ w) (zs' ++ ws') (N'.dsum M') (y' ++ w') := by
  obtain ⟨l, d, a, h0, hJ, h1, h2, h3⟩ := h
  obtain ⟨l', d', a', h0', hJ', h1', h2', h3'⟩ := k
  refine ⟨by simp [l, l'], fun i => if i < zs.length then d i else d' (i - zs.length), fun i => if i < zs.length then a i else a' (i - zs.length), fun i => ?_, ?_,
    fun i hi => ?_, fun i hi j hj => ?_, fun i hi => ?_⟩
  · dsimp only
    split_ifs
    · exact h0 i
    · exact h0' _
  · rw [hJ, hJ', List.length_append, Finset.sum_range_add]
    congr 1
    · exact Finset.sum_congr rfl fun i hi => by dsimp only; rw [if_pos (Finset.mem_range.1 hi)]
    · exact Finset.sum_congr rfl fun i _ => by dsimp only; rw [if_neg (by omega), Nat.add_sub_cancel_left]
  · rw [List.length_append] at hi
    dsimp only
    split_ifs with h
    · rw [List.getD_append _ _ _ _ (l ▸ h), List.getD_append _ _ _ _ h, h1 i h]
    · rw [List.getD_append_right _ _ _ _ (by omega), List.getD_append_right _ _ _ _ (by omega), l, h1' _ (by omega)]
  · rw [List.length_append] at hi hj
    simp only [Mat.dsum, hr, hc, hr', hc', l]
    split_ifs with h h' h'
    · exact h2 i h j h'
    · simp
    · simp
    · exact h2' _ (by omega) _ (by omega)
  · rw [List.length_append] at hi
    dsimp only
    split_ifs with h
    · rw [List.getD_append _ _ _ _ (by omega), List.getD_append _ _ _ _ (by omega), h3 i h]
    · rw [List.getD_append_right _ _ _ _ (by omega), List.getD_append_right _ _ _ _ (by omega), hy, hy', l, h3' _ (by omega)]

/-- What changes with the units. -/
theorem Rescaled.parts (hr : Rescaled one J zs N y zs' N' y') (hE : S.E one = 1) (hC : ∀ v, S.C one v = 0) :
    ∃ (e : Fin zs.length ≃ Fin zs'.length) (d : Fin zs.length → ℝ), (∀ i, d i ≠ 0) ∧ J = ∑ i, Real.log |d i| ∧ (∀ i v, S.C (zs'.get (e i)) v = d i * S.C (zs.get i) v) ∧
      (noisyGram S zs' N').submatrix e e = diagonal d * noisyGram S zs N * diagonal d ∧
      ∀ i, y'.getD (e i) 0 - S.E (zs'.get (e i)) = d i * (y.getD i 0 - S.E (zs.get i)) := by
  obtain ⟨l, d, a, h0, hJ, h1, h2, h3⟩ := hr
  have hg : ∀ i : Fin zs.length, zs'.get (finCongr l.symm i) = d i • zs.get i + a i • one := by
    intro i
    have := h1 i i.2
    rw [List.getD_eq_getElem _ _ (by omega), List.getD_eq_getElem _ _ (by omega)] at this
    exact this
  have hcl : ∀ i v, S.C (zs'.get (finCongr l.symm i)) v = d i * S.C (zs.get i) v := by
    intro i v
    rw [hg]
    simp [hC]
  have hcr : ∀ i v, S.C v (zs'.get (finCongr l.symm i)) = d i * S.C v (zs.get i) := by
    intro i v
    rw [S.symm, hcl, S.symm]
  refine ⟨finCongr l.symm, fun i => d i, fun i => h0 i, hJ.trans (Finset.sum_range fun i => Real.log |d i|), hcl, ?_, fun i => ?_⟩
  · ext i j
    rw [mul_diagonal, diagonal_mul]
    show S.C (zs'.get (finCongr l.symm i)) (zs'.get (finCongr l.symm j)) + N'.e i j = d i * (S.C (zs.get i) (zs.get j) + N.e i j) * d j
    rw [hcl, hcr, h2 i i.2 j j.2]
    ring
  · show y'.getD i 0 - _ = _
    rw [hg, h3 i i.2]
    simp [hE]
    ring

theorem Rescaled.posDef (hr : Rescaled one J zs N y zs' N' y') (hE : S.E one = 1) (hC : ∀ v, S.C one v = 0) (hp : (noisyGram S zs N).PosDef) :
    (noisyGram S zs' N').PosDef := by
  obtain ⟨e, d, h0, -, -, hg, -⟩ := hr.parts (S := S) hE hC
  have h1 : (diagonal d * noisyGram S zs N * diagonal d).PosDef := by
    have := hp.conjTranspose_mul_mul_same (B := diagonal d) (by
      refine mulVec_injective_of_isUnit ?_
      rw [isUnit_iff_isUnit_det, det_diagonal, isUnit_iff_ne_zero]
      exact Finset.prod_ne_zero_iff.2 fun i _ => h0 i)
    rwa [diagonal_conjTranspose, star_trivial] at this
  have : noisyGram S zs' N' = (diagonal d * noisyGram S zs N * diagonal d).submatrix e.symm e.symm := by
    rw [← hg, submatrix_submatrix]; simp
  rw [this]
  exact h1.submatrix e.symm.injective

/-- The units do not matter. -/
theorem IsUpdate.rescaled (h : IsUpdate S S' zs N y) (hj : IsUpdate S Sj zs' N' y') (hr : Rescaled one J zs N y zs' N' y') (hp : (noisyGram S zs N).PosDef)
    (hE : S.E one = 1) (hC : ∀ v, S.C one v = 0) :
    (∀ u v, S'.C u v = Sj.C u v) ∧ (y.length = zs.length → y'.length = zs'.length → ∀ u, S'.E u = Sj.E u) := by
  have hp' := hr.posDef hE hC hp
  obtain ⟨e, d, h0, -, hcl, hgr, hres'⟩ := hr.parts (S := S) hE hC
  set D : Matrix (Fin zs.length) (Fin zs.length) ℝ := diagonal d with hD
  have hDu : IsUnit D.det := by
    rw [hD, det_diagonal, isUnit_iff_ne_zero]
    exact Finset.prod_ne_zero_iff.2 fun i _ => h0 i
  have hi : (D * noisyGram S zs N * D)⁻¹ = D⁻¹ * ((noisyGram S zs N)⁻¹ * D⁻¹) := by
    rw [Matrix.mul_inv_rev, Matrix.mul_inv_rev]
  have hcv : ∀ v, S.cv (zs'.get ∘ e) v = D *ᵥ S.cv zs.get v := by
    intro v
    funext i
    rw [hD, mulVec_diagonal]
    exact hcl i v
  have key : ∀ (c : Fin zs.length → ℝ) r, (D *ᵥ c) ⬝ᵥ ((D * noisyGram S zs N * D)⁻¹ *ᵥ (D *ᵥ r)) = c ⬝ᵥ ((noisyGram S zs N)⁻¹ *ᵥ r) := by
    intro c r
    have hT : Dᵀ = D := by rw [hD, diagonal_transpose]
    rw [hi, mulVec_mulVec, Matrix.mul_assoc, Matrix.mul_assoc, nonsing_inv_mul _ hDu, Matrix.mul_one, ← mulVec_mulVec, dotProduct_mulVec, ← mulVec_transpose,
      transpose_nonsing_inv, hT, mulVec_mulVec, nonsing_inv_mul _ hDu, one_mulVec]
  refine ⟨fun u v => ?_, fun hy hy' u => ?_⟩
  · rw [h.C_upd hp, hj.C_upd hp', ← SO.updC_reindex S _ e, hgr]
    unfold SO.updC
    rw [hcv, hcv, key]
  · rw [h.E_upd hp hy, hj.E_upd hp' hy', ← SO.updE_reindex S _ e, hgr]
    unfold SO.updE
    have hres : (fun b : Fin zs'.length => y'.getD b 0 - S.E (zs'.get b)) ∘ e = D *ᵥ fun b => y.getD b 0 - S.E (zs.get b) := by
      funext i
      rw [hD, mulVec_diagonal]
      exact hres' i
    rw [hcv, hres, key]

end

end Stheno
