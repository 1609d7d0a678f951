import Mathlib.Data.Matrix.Block
import Mathlib.LinearAlgebra.Matrix.SchurComplement
import Verif.Update

/-!
# Sequential, joint and reordered observations

Observing in two steps is the same as observing at once, and the order of what is observed does not matter.
-/

namespace Stheno

open Matrix

set_option linter.unusedSectionVars false

variable {V : Type} [AddCommGroup V] [Module ℝ V]

section
variable {ι κ : Type} [Fintype ι] [Fintype κ] [DecidableEq ι] [DecidableEq κ]

/-- Covariances with a family of random variables. -/
def SO.cv (S : SO V) (z : ι → V) (u : V) : ι → ℝ := fun i => S.C (z i) u

/-- The covariance matrix of a family. -/
def SO.gr (S : SO V) (z : ι → V) (z' : κ → V) : Matrix ι κ ℝ := fun i j => S.C (z i) (z' j)

/-- The posterior covariance given a noisy observation of a family, where `K` is the covariance of the observation. -/
noncomputable def SO.updC (S : SO V) (z : ι → V) (K : Matrix ι ι ℝ) (u v : V) : ℝ :=
  S.C u v - S.cv z u ⬝ᵥ (K⁻¹ *ᵥ S.cv z v)

/-- The posterior expectation, where `r` is the observation minus its expectation. -/
noncomputable def SO.updE (S : SO V) (z : ι → V) (K : Matrix ι ι ℝ) (r : ι → ℝ) (u : V) : ℝ :=
  S.E u + S.cv z u ⬝ᵥ (K⁻¹ *ᵥ r)

variable (S : SO V) (z : ι → V) (z' : κ → V)

theorem SO.updC_reindex (e : κ ≃ ι) (K : Matrix ι ι ℝ) (u v : V) :
    S.updC (z ∘ e) (K.submatrix e e) u v = S.updC z K u v := by
  unfold SO.updC
  congr 1
  have h1 : ∀ w, S.cv (z ∘ e) w = S.cv z w ∘ e := fun w => rfl
  rw [inv_submatrix_equiv, h1, h1, submatrix_mulVec_equiv]
  simp only [Function.comp_assoc, Equiv.self_comp_symm, Function.comp_id]
  exact comp_equiv_dotProduct_comp_equiv _ _ e

theorem SO.updE_reindex (e : κ ≃ ι) (K : Matrix ι ι ℝ) (r : ι → ℝ) (u : V) :
    S.updE (z ∘ e) (K.submatrix e e) (r ∘ e) u = S.updE z K r u := by
  unfold SO.updE
  congr 1
  have h1 : ∀ w, S.cv (z ∘ e) w = S.cv z w ∘ e := fun w => rfl
  rw [inv_submatrix_equiv, h1, submatrix_mulVec_equiv]
  simp only [Function.comp_assoc, Equiv.self_comp_symm, Function.comp_id]
  exact comp_equiv_dotProduct_comp_equiv _ _ e

/-- Solving in two steps. -/
theorem block_solve {A : Matrix ι ι ℝ} {B : Matrix ι κ ℝ} {D : Matrix κ κ ℝ} (hA : IsUnit A.det)
    (hs : IsUnit (D - Bᵀ * A⁻¹ * B).det) (c : ι → ℝ) (d : κ → ℝ) :
    (fromBlocks A B Bᵀ D)⁻¹ *ᵥ Sum.elim c d =
      Sum.elim (A⁻¹ *ᵥ (c - B *ᵥ ((D - Bᵀ * A⁻¹ * B)⁻¹ *ᵥ (d - Bᵀ *ᵥ (A⁻¹ *ᵥ c)))))
        ((D - Bᵀ * A⁻¹ * B)⁻¹ *ᵥ (d - Bᵀ *ᵥ (A⁻¹ *ᵥ c))) := by
  set b := (D - Bᵀ * A⁻¹ * B)⁻¹ *ᵥ (d - Bᵀ *ᵥ (A⁻¹ *ᵥ c)) with hb
  have hdet : IsUnit (fromBlocks A B Bᵀ D).det := by
    let := A.invertibleOfIsUnitDet hA
    rw [det_fromBlocks₁₁, invOf_eq_nonsing_inv]
    exact hA.mul hs
  have hmul : fromBlocks A B Bᵀ D *ᵥ Sum.elim (A⁻¹ *ᵥ (c - B *ᵥ b)) b = Sum.elim c d := by
    rw [fromBlocks_mulVec]
    simp only [Sum.elim_comp_inl, Sum.elim_comp_inr]
    congr 1
    · rw [mulVec_mulVec, mul_nonsing_inv _ hA, one_mulVec]
      simp
    · have h1 : (D - Bᵀ * A⁻¹ * B) *ᵥ b = d - Bᵀ *ᵥ (A⁻¹ *ᵥ c) := by
        rw [hb, mulVec_mulVec, mul_nonsing_inv _ hs, one_mulVec]
      rw [sub_mulVec, ← mulVec_mulVec, ← mulVec_mulVec] at h1
      rw [mulVec_sub, mulVec_sub]
      have h2 := congrArg (· + Bᵀ *ᵥ (A⁻¹ *ᵥ c)) h1
      simp only [sub_add_cancel] at h2
      rw [← h2]
      abel
  rw [← hmul, mulVec_mulVec, nonsing_inv_mul _ hdet, one_mulVec]

/-- Observing `z` and then `z'` is observing both, for covariances. -/
theorem SO.updC_updC {S' : SO V} {K : Matrix ι ι ℝ} {N : Matrix κ κ ℝ} (hK : IsUnit K.det)
    (hM : IsUnit (S'.gr z' z' + N).det) (hs : K.IsSymm)
    (hS' : ∀ u v, S'.C u v = S.updC z K u v) (u v : V) :
    S'.updC z' (S'.gr z' z' + N) u v =
      S.updC (Sum.elim z z') (fromBlocks K (S.gr z z') (S.gr z z')ᵀ (S.gr z' z' + N)) u v := by
  have hi : K⁻¹.IsSymm := by
    unfold IsSymm; rw [transpose_nonsing_inv, hs.eq]
  have hg : S'.gr z' z' + N = S.gr z' z' + N - (S.gr z z')ᵀ * K⁻¹ * S.gr z z' := by
    have : S'.gr z' z' = S.gr z' z' - (S.gr z z')ᵀ * K⁻¹ * S.gr z z' := by
      ext i j
      show S'.C (z' i) (z' j) = S.C _ _ - _
      rw [hS', SO.updC]
      congr 1
      rw [Matrix.mul_assoc, mul_apply']
      congr 1
    rw [this]; abel
  have hc : ∀ u, S'.cv z' u = S.cv z' u - (S.gr z z')ᵀ *ᵥ (K⁻¹ *ᵥ S.cv z u) := by
    intro u
    funext j
    show S'.C (z' j) u = _
    rw [hS']
    rfl
  have he : ∀ u, S.cv (Sum.elim z z') u = Sum.elim (S.cv z u) (S.cv z' u) := by
    intro u
    funext j
    cases j <;> rfl
  unfold SO.updC
  rw [he, he, block_solve hK (hg ▸ hM), ← hg, ← hc, sumElim_dotProduct_sumElim, mulVec_sub, dotProduct_sub, hS' u v, SO.updC, hc u,
    sub_dotProduct]
  have h3 : S.cv z u ⬝ᵥ K⁻¹ *ᵥ S.gr z z' *ᵥ (S'.gr z' z' + N)⁻¹ *ᵥ S'.cv z' v =
      ((S.gr z z')ᵀ *ᵥ (K⁻¹ *ᵥ S.cv z u)) ⬝ᵥ ((S'.gr z' z' + N)⁻¹ *ᵥ S'.cv z' v) := by
    rw [dotProduct_mulVec, dotProduct_mulVec, ← mulVec_transpose, ← mulVec_transpose, hi.eq]
  rw [h3]
  ring

/-- Observing `z` and then `z'` is observing both, for expectations. -/
theorem SO.updE_updE {S' : SO V} {K : Matrix ι ι ℝ} {N : Matrix κ κ ℝ} (hK : IsUnit K.det)
    (hM : IsUnit (S'.gr z' z' + N).det) (hs : K.IsSymm) (r : ι → ℝ) (y' : κ → ℝ)
    (hS' : ∀ u v, S'.C u v = S.updC z K u v) (hE : ∀ u, S'.E u = S.updE z K r u) (u : V) :
    S'.updE z' (S'.gr z' z' + N) (fun j => y' j - S'.E (z' j)) u =
      S.updE (Sum.elim z z') (fromBlocks K (S.gr z z') (S.gr z z')ᵀ (S.gr z' z' + N))
        (Sum.elim r fun j => y' j - S.E (z' j)) u := by
  have hi : K⁻¹.IsSymm := by
    unfold IsSymm; rw [transpose_nonsing_inv, hs.eq]
  have hg : S'.gr z' z' + N = S.gr z' z' + N - (S.gr z z')ᵀ * K⁻¹ * S.gr z z' := by
    have : S'.gr z' z' = S.gr z' z' - (S.gr z z')ᵀ * K⁻¹ * S.gr z z' := by
      ext i j
      show S'.C (z' i) (z' j) = S.C _ _ - _
      rw [hS', SO.updC]
      congr 1
      rw [Matrix.mul_assoc, mul_apply']
      congr 1
    rw [this]; abel
  have hc : ∀ u, S'.cv z' u = S.cv z' u - (S.gr z z')ᵀ *ᵥ (K⁻¹ *ᵥ S.cv z u) := by
    intro u
    funext j
    show S'.C (z' j) u = _
    rw [hS']
    rfl
  have hr : (fun j => y' j - S'.E (z' j)) = (fun j => y' j - S.E (z' j)) - (S.gr z z')ᵀ *ᵥ (K⁻¹ *ᵥ r) := by
    funext j
    show y' j - S'.E (z' j) = (y' j - S.E (z' j)) - _
    rw [hE, SO.updE]
    show _ = _ - S.cv z (z' j) ⬝ᵥ (K⁻¹ *ᵥ r)
    ring
  have he : S.cv (Sum.elim z z') u = Sum.elim (S.cv z u) (S.cv z' u) := by
    funext j
    cases j <;> rfl
  unfold SO.updE
  rw [he, block_solve hK (hg ▸ hM), ← hg, ← hr, sumElim_dotProduct_sumElim, mulVec_sub, dotProduct_sub, hE u, SO.updE, hc u,
    sub_dotProduct]
  have h3 : S.cv z u ⬝ᵥ K⁻¹ *ᵥ S.gr z z' *ᵥ (S'.gr z' z' + N)⁻¹ *ᵥ (fun j => y' j - S'.E (z' j)) =
      ((S.gr z z')ᵀ *ᵥ (K⁻¹ *ᵥ S.cv z u)) ⬝ᵥ ((S'.gr z' z' + N)⁻¹ *ᵥ (fun j => y' j - S'.E (z' j))) := by
    rw [dotProduct_mulVec, dotProduct_mulVec, ← mulVec_transpose, ← mulVec_transpose, hi.eq]
  rw [h3]
  ring

end

end Stheno
