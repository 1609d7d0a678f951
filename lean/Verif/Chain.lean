import Mathlib.LinearAlgebra.Matrix.SchurComplement
import Verif.Join
import Verif.Normal

/-!
# Log-densities of joint observations

The determinant and the quadratic form of a matrix of blocks, and with those the chain rule: the log-density of two groups of noisy
observations is that of the first plus that of the second after updating with the first.
-/

namespace Stheno

open Matrix

set_option linter.unusedSectionVars false

section
variable {ι κ : Type} [Fintype ι] [Fintype κ] [DecidableEq ι] [DecidableEq κ]

/-- The determinant of a matrix of blocks. -/
theorem det_schur {A : Matrix ι ι ℝ} (B : Matrix ι κ ℝ) (C : Matrix κ ι ℝ) (D : Matrix κ κ ℝ) (hA : IsUnit A.det) :
    (fromBlocks A B C D).det = A.det * (D - C * A⁻¹ * B).det := by
  let := invertibleOfIsUnitDet A hA
  rw [det_fromBlocks₁₁, invOf_eq_nonsing_inv]

/-- The inverse of a matrix of blocks, applied to a vector. -/
theorem quad_schur {A : Matrix ι ι ℝ} {B : Matrix ι κ ℝ} {D : Matrix κ κ ℝ} (hA : IsUnit A.det) (hs : A.IsSymm)
    (hS : IsUnit (D - Bᵀ * A⁻¹ * B).det) (v : ι → ℝ) (w : κ → ℝ) :
    Sum.elim v w ⬝ᵥ ((fromBlocks A B Bᵀ D)⁻¹ *ᵥ Sum.elim v w) =
      v ⬝ᵥ (A⁻¹ *ᵥ v) + (w - Bᵀ *ᵥ (A⁻¹ *ᵥ v)) ⬝ᵥ ((D - Bᵀ * A⁻¹ * B)⁻¹ *ᵥ (w - Bᵀ *ᵥ (A⁻¹ *ᵥ v))) := by
  set S := D - Bᵀ * A⁻¹ * B with hSd
  set u := w - Bᵀ *ᵥ (A⁻¹ *ᵥ v) with hu
  have hM : IsUnit (fromBlocks A B Bᵀ D).det := by rw [det_schur B Bᵀ D hA]; exact hA.mul hS
  have hinv : (A⁻¹).IsSymm := by rw [IsSymm, transpose_nonsing_inv, hs.eq]
  have hx : (fromBlocks A B Bᵀ D) *ᵥ Sum.elim (A⁻¹ *ᵥ (v - B *ᵥ (S⁻¹ *ᵥ u))) (S⁻¹ *ᵥ u) = Sum.elim v w := by
    rw [fromBlocks_mulVec]
    congr 1
    · simp only [Sum.elim_comp_inl, Sum.elim_comp_inr]
      rw [mulVec_mulVec, mul_nonsing_inv _ hA, one_mulVec, sub_add_cancel]
    · simp only [Sum.elim_comp_inl, Sum.elim_comp_inr]
      have hD : D = S + Bᵀ * A⁻¹ * B := by rw [hSd, sub_add_cancel]
      have hSu : S *ᵥ (S⁻¹ *ᵥ u) = u := by rw [mulVec_mulVec, mul_nonsing_inv _ hS, one_mulVec]
      rw [mulVec_sub, mulVec_sub, hD, add_mulVec, hSu]
      simp only [← mulVec_mulVec]
      rw [hu]
      abel
  have hy : (fromBlocks A B Bᵀ D)⁻¹ *ᵥ Sum.elim v w = Sum.elim (A⁻¹ *ᵥ (v - B *ᵥ (S⁻¹ *ᵥ u))) (S⁻¹ *ᵥ u) := by
    rw [← hx, mulVec_mulVec, nonsing_inv_mul _ hM, one_mulVec]
  rw [hy]
  simp only [dotProduct, Fintype.sum_sum_type, Sum.elim_inl, Sum.elim_inr]
  change v ⬝ᵥ _ + w ⬝ᵥ _ = v ⬝ᵥ _ + u ⬝ᵥ _
  have h1 : v ⬝ᵥ (A⁻¹ *ᵥ (B *ᵥ (S⁻¹ *ᵥ u))) = (Bᵀ *ᵥ (A⁻¹ *ᵥ v)) ⬝ᵥ (S⁻¹ *ᵥ u) := by
    rw [dotProduct_mulVec, ← mulVec_transpose, hinv.eq, dotProduct_mulVec, ← mulVec_transpose]
  rw [mulVec_sub, dotProduct_sub, h1, hu, sub_dotProduct]
  ring

end

section
variable {V : Type} [AddCommGroup V] [Module ℝ V] {S S1 : SO V} {zs1 zs2 : List V} {n1 n2 : Mat} {y1 y2 : List ℝ}

/-- The distribution of noisy observations. -/
def obsNormal (S : SO V) (zs : List V) (noise : Mat) : Normal zs.length := ⟨fun i => S.E (zs.get i), noisyGram S zs noise⟩

theorem noisyGram_blocks (hr : n1.r = zs1.length) (hc : n1.c = zs1.length) :
    (noisyGram S (zs1 ++ zs2) (n1.dsum n2)).submatrix (appEquiv zs1 zs2) (appEquiv zs1 zs2) =
      fromBlocks (noisyGram S zs1 n1) (S.gr zs1.get zs2.get) (S.gr zs1.get zs2.get)ᵀ
        (S.gr zs2.get zs2.get + n2.sq zs2.length) := by
  have hd := dsum_sq zs1 zs2 (B := n2) hr hc
  ext i j
  have hd := congrFun (congrFun hd i) j
  change S.C _ _ + ((n1.dsum n2).sq (zs1 ++ zs2).length).submatrix (appEquiv zs1 zs2) (appEquiv zs1 zs2) i j = _
  rw [hd]
  rcases i with i | i <;> rcases j with j | j <;>
    simp only [noisyGram, gram, SO.gr, Matrix.add_apply, fromBlocks_apply₁₁, fromBlocks_apply₁₂, fromBlocks_apply₂₁,
      fromBlocks_apply₂₂, get_inl, get_inr, transpose_apply, Matrix.zero_apply, add_zero]
  exact S.symm _ _

/-- The chain rule. -/
theorem IsUpdate.chain (h1 : IsUpdate S S1 zs1 n1 y1) (p1 : (noisyGram S zs1 n1).PosDef)
    (pj : (noisyGram S (zs1 ++ zs2) (n1.dsum n2)).PosDef) (l1 : y1.length = zs1.length) :
    (obsNormal S (zs1 ++ zs2) (n1.dsum n2)).logpdfFull (fun i => (y1 ++ y2).getD i 0) =
      (obsNormal S zs1 n1).logpdfFull (fun i => y1.getD i 0) + (obsNormal S1 zs2 n2).logpdfFull fun i => y2.getD i 0 := by
  have d1 : IsUnit (noisyGram S zs1 n1).det := isUnit_iff_ne_zero.2 p1.det_pos.ne'
  have hs : (noisyGram S zs1 n1).IsSymm := by
    have := p1.1
    rwa [IsHermitian, conjTranspose_eq_transpose_of_trivial] at this
  have key := noisyGram_blocks (S := S) (zs2 := zs2) (n2 := n2) h1.r h1.c
  set A := noisyGram S zs1 n1 with hA
  set B : Matrix (Fin zs1.length) (Fin zs2.length) ℝ := S.gr zs1.get zs2.get with hB
  set D : Matrix (Fin zs2.length) (Fin zs2.length) ℝ := S.gr zs2.get zs2.get + n2.sq zs2.length with hD
  have hS : noisyGram S1 zs2 n2 = D - Bᵀ * A⁻¹ * B := by
    ext i j
    show S1.C _ _ + n2.e i j = S.C _ _ + n2.e i j - _
    rw [h1.C p1, ← hA, quadSum_eq]
    have : covs S zs1 (zs2.get i) ⬝ᵥ (A⁻¹ *ᵥ covs S zs1 (zs2.get j)) = (Bᵀ * A⁻¹ * B) i j := by
      rw [Matrix.mul_assoc, Matrix.mul_apply]
      rfl
    rw [this]
    ring
  have hu : (fun i : Fin zs2.length => y2.getD i 0) - (fun i => S1.E (zs2.get i)) =
      ((fun i : Fin zs2.length => y2.getD i 0) - fun i => S.E (zs2.get i)) -
        Bᵀ *ᵥ (A⁻¹ *ᵥ ((fun i : Fin zs1.length => y1.getD i 0) - fun i => S.E (zs1.get i))) := by
    funext i
    show y2.getD i 0 - S1.E _ = y2.getD i 0 - S.E _ - _
    rw [h1.E p1 l1, sub_sub]
    rfl
  have hpj : (fromBlocks A B Bᵀ D).PosDef := key ▸ pj.submatrix (appEquiv zs1 zs2).injective
  have dj : IsUnit (fromBlocks A B Bᵀ D).det := isUnit_iff_ne_zero.2 hpj.det_pos.ne'
  have dS : IsUnit (D - Bᵀ * A⁻¹ * B).det := by
    rw [det_schur B Bᵀ D d1] at dj
    exact (IsUnit.mul_iff.1 dj).2
  have hdet : (noisyGram S (zs1 ++ zs2) (n1.dsum n2)).det = A.det * (D - Bᵀ * A⁻¹ * B).det := by
    rw [← det_schur B Bᵀ D d1, ← key, det_submatrix_equiv_self]
  have hv : ((fun i : Fin (zs1 ++ zs2).length => (y1 ++ y2).getD i 0) - fun i => S.E ((zs1 ++ zs2).get i)) ∘ appEquiv zs1 zs2 =
      Sum.elim ((fun i : Fin zs1.length => y1.getD i 0) - fun i => S.E (zs1.get i))
        ((fun i : Fin zs2.length => y2.getD i 0) - fun i => S.E (zs2.get i)) := by
    funext i
    rcases i with i | i
    · show (y1 ++ y2).getD _ 0 - S.E ((zs1 ++ zs2).get _) = _
      rw [getD_inl zs1 zs2 l1, get_inl]; rfl
    · show (y1 ++ y2).getD _ 0 - S.E ((zs1 ++ zs2).get _) = _
      rw [getD_inr zs1 zs2 l1, get_inr]; rfl
  have hq := quad_schur (A := A) (B := B) (D := D) d1 hs dS ((fun i : Fin zs1.length => y1.getD i 0) - fun i => S.E (zs1.get i))
    ((fun i : Fin zs2.length => y2.getD i 0) - fun i => S.E (zs2.get i))
  rw [← hv, ← key, inv_submatrix_equiv, submatrix_mulVec_equiv, comp_equiv_dotProduct_comp_equiv, Function.comp_assoc,
    Equiv.self_comp_symm, Function.comp_id, ← hu, ← hS] at hq
  unfold Normal.logpdfFull obsNormal
  simp only
  rw [hdet, hq, Real.log_mul d1.ne_zero dS.ne_zero, ← hS, List.length_append, Nat.cast_add]
  ring

end

end Stheno
