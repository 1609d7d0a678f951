import Mathlib.Data.Matrix.ColumnRowPartitioned
import Verif.Chain

/-!
# Repeated observations

Observing the same random variables several times with independent noise, possibly together with other random variables, is observing
them once: the precisions of the noise add, and so do the data weighted by the precisions.
-/

namespace Stheno

open Matrix

set_option linter.unusedSectionVars false

section
variable {ι κ : Type} [Fintype ι] [Fintype κ] [DecidableEq ι] [DecidableEq κ]

/-- The covariance matrix of observing twice, and of other observations. -/
def doubled (K N1 N2 : Matrix ι ι ℝ) (B : Matrix ι κ ℝ) (D : Matrix κ κ ℝ) : Matrix (ι ⊕ (ι ⊕ κ)) (ι ⊕ (ι ⊕ κ)) ℝ :=
  fromBlocks (K + N1) (fromCols K B) (fromRows K Bᵀ) (fromBlocks (K + N2) B Bᵀ D)

/-- Weights of one observation, spread over two. -/
noncomputable def spread (N1 N2 N : Matrix ι ι ℝ) (w : ι → ℝ) (w' : κ → ℝ) : ι ⊕ (ι ⊕ κ) → ℝ :=
  Sum.elim (N1⁻¹ *ᵥ (N *ᵥ w)) (Sum.elim (N2⁻¹ *ᵥ (N *ᵥ w)) w')

variable {K N1 N2 N : Matrix ι ι ℝ} {B : Matrix ι κ ℝ} {D : Matrix κ κ ℝ}

theorem pool_sum (h : IsUnit N.det) (hN : N⁻¹ = N1⁻¹ + N2⁻¹) (w : ι → ℝ) : N1⁻¹ *ᵥ (N *ᵥ w) + N2⁻¹ *ᵥ (N *ᵥ w) = w := by
  rw [← add_mulVec, ← hN, mulVec_mulVec, nonsing_inv_mul _ h, one_mulVec]

theorem doubled_spread (h1 : IsUnit N1.det) (h2 : IsUnit N2.det) (h : IsUnit N.det) (hN : N⁻¹ = N1⁻¹ + N2⁻¹) (w : ι → ℝ) (w' : κ → ℝ) :
    doubled K N1 N2 B D *ᵥ spread N1 N2 N w w' =
      Sum.elim ((K + N) *ᵥ w + B *ᵥ w') (Sum.elim ((K + N) *ᵥ w + B *ᵥ w') (Bᵀ *ᵥ w + D *ᵥ w')) := by
  have hs := pool_sum h hN w
  have e1 : N1 *ᵥ (N1⁻¹ *ᵥ (N *ᵥ w)) = N *ᵥ w := by rw [mulVec_mulVec, mul_nonsing_inv _ h1, one_mulVec]
  have e2 : N2 *ᵥ (N2⁻¹ *ᵥ (N *ᵥ w)) = N *ᵥ w := by rw [mulVec_mulVec, mul_nonsing_inv _ h2, one_mulVec]
  have eK : K *ᵥ w = K *ᵥ (N1⁻¹ *ᵥ (N *ᵥ w)) + K *ᵥ (N2⁻¹ *ᵥ (N *ᵥ w)) := by rw [← mulVec_add, hs]
  have eB : Bᵀ *ᵥ w = Bᵀ *ᵥ (N1⁻¹ *ᵥ (N *ᵥ w)) + Bᵀ *ᵥ (N2⁻¹ *ᵥ (N *ᵥ w)) := by rw [← mulVec_add, hs]
  unfold doubled spread
  rw [fromBlocks_mulVec]
  simp only [Sum.elim_comp_inl, Sum.elim_comp_inr, fromBlocks_mulVec, fromCols_mulVec_sumElim, fromRows_mulVec, add_mulVec, e1, e2, eK, eB]
  congr 1
  · abel
  · ext k
    rcases k with k | k <;> simp only [Pi.add_apply, Sum.elim_inl, Sum.elim_inr] <;> ring

theorem PosDef.det_unit {N : Matrix ι ι ℝ} (h : N.PosDef) : IsUnit N.det := isUnit_iff_ne_zero.2 h.det_pos.ne'

theorem PosDef.isSymm {N : Matrix ι ι ℝ} (h : N.PosDef) : N.IsSymm := by
  have := h.1
  rwa [IsHermitian, conjTranspose_eq_transpose_of_trivial] at this

theorem symm_dot {A : Matrix ι ι ℝ} (h : A.IsSymm) (u v : ι → ℝ) : (A *ᵥ u) ⬝ᵥ v = u ⬝ᵥ (A *ᵥ v) := by
  rw [dotProduct_mulVec, ← mulVec_transpose, h.eq]

theorem spread_dot (h1 : N1.PosDef) (h2 : N2.PosDef) (h : N.PosDef) (w : ι → ℝ) (w' : κ → ℝ) {r1 r2 r : ι → ℝ} (r' : κ → ℝ)
    (hr : N⁻¹ *ᵥ r = N1⁻¹ *ᵥ r1 + N2⁻¹ *ᵥ r2) :
    spread N1 N2 N w w' ⬝ᵥ Sum.elim r1 (Sum.elim r2 r') = Sum.elim w w' ⬝ᵥ Sum.elim r r' := by
  have e : r = N *ᵥ (N1⁻¹ *ᵥ r1) + N *ᵥ (N2⁻¹ *ᵥ r2) := by
    rw [← mulVec_add, ← hr, mulVec_mulVec, mul_nonsing_inv _ (PosDef.det_unit h), one_mulVec]
  unfold spread
  rw [sumElim_dotProduct_sumElim, sumElim_dotProduct_sumElim, sumElim_dotProduct_sumElim, e, dotProduct_add,
    symm_dot (PosDef.isSymm h1.inv), symm_dot (PosDef.isSymm h2.inv), symm_dot (PosDef.isSymm h), symm_dot (PosDef.isSymm h)]
  ring

/-- If the covariance matrix of both observations is positive definite, so is that of the one. -/
theorem pooled_posDef (h1 : N1.PosDef) (h2 : N2.PosDef) (h : N.PosDef) (hN : N⁻¹ = N1⁻¹ + N2⁻¹) (hK : K.IsSymm) (hD : D.IsSymm)
    (hM : (doubled K N1 N2 B D).PosDef) : (fromBlocks (K + N) B Bᵀ D).PosDef := by
  refine PosDef.of_dotProduct_mulVec_pos ?_ fun w hw => ?_
  · rw [IsHermitian, conjTranspose_eq_transpose_of_trivial, fromBlocks_transpose, transpose_add, hK.eq, (PosDef.isSymm h).eq, hD.eq,
      transpose_transpose]
  · obtain ⟨u, v, rfl⟩ : ∃ u v, w = Sum.elim u v := ⟨w ∘ Sum.inl, w ∘ Sum.inr, (Sum.elim_comp_inl_inr w).symm⟩
    have hne : spread N1 N2 N u v ≠ 0 := by
      intro h0
      apply hw
      have a1 : N1⁻¹ *ᵥ (N *ᵥ u) = 0 := funext fun i => congrFun h0 (.inl i)
      have a2 : N2⁻¹ *ᵥ (N *ᵥ u) = 0 := funext fun i => congrFun h0 (.inr (.inl i))
      have a3 : v = 0 := funext fun i => congrFun h0 (.inr (.inr i))
      have := pool_sum (PosDef.det_unit h) hN u
      rw [a1, a2, add_zero] at this
      rw [← this, a3]
      ext i; cases i <;> rfl
    have := hM.dotProduct_mulVec_pos hne
    rw [star_trivial, doubled_spread (PosDef.det_unit h1) (PosDef.det_unit h2) (PosDef.det_unit h) hN,
      spread_dot h1 h2 h _ _ (r := (K + N) *ᵥ u + B *ᵥ v) _ (by rw [hN, add_mulVec])] at this
    rw [star_trivial, fromBlocks_mulVec]
    exact this

theorem pool_solve (h1 : N1.PosDef) (h2 : N2.PosDef) (h : N.PosDef) (hN : N⁻¹ = N1⁻¹ + N2⁻¹)
    (hM : (doubled K N1 N2 B D).PosDef) (hP : (fromBlocks (K + N) B Bᵀ D).PosDef) (c : ι → ℝ) (c' : κ → ℝ) :
    ∃ w w', (doubled K N1 N2 B D)⁻¹ *ᵥ Sum.elim c (Sum.elim c c') = spread N1 N2 N w w' ∧
      (fromBlocks (K + N) B Bᵀ D)⁻¹ *ᵥ Sum.elim c c' = Sum.elim w w' := by
  set x := (fromBlocks (K + N) B Bᵀ D)⁻¹ *ᵥ Sum.elim c c' with hx
  obtain ⟨u, v, e⟩ : ∃ u v, x = Sum.elim u v := ⟨x ∘ Sum.inl, x ∘ Sum.inr, (Sum.elim_comp_inl_inr x).symm⟩
  refine ⟨u, v, ?_, e⟩
  have e2 : fromBlocks (K + N) B Bᵀ D *ᵥ Sum.elim u v = Sum.elim c c' := by
    rw [← e, hx, mulVec_mulVec, mul_nonsing_inv _ (PosDef.det_unit hP), one_mulVec]
  rw [fromBlocks_mulVec] at e2
  simp only [Sum.elim_comp_inl, Sum.elim_comp_inr] at e2
  have e3 : (K + N) *ᵥ u + B *ᵥ v = c := funext fun i => congrFun e2 (.inl i)
  have e4 : Bᵀ *ᵥ u + D *ᵥ v = c' := funext fun i => congrFun e2 (.inr i)
  have := doubled_spread (K := K) (B := B) (D := D) (PosDef.det_unit h1) (PosDef.det_unit h2) (PosDef.det_unit h) hN u v
  rw [e3, e4] at this
  rw [← this, mulVec_mulVec, nonsing_inv_mul _ (PosDef.det_unit hM), one_mulVec]

/-- The two quadratic forms agree. -/
theorem pool_quad (h1 : N1.PosDef) (h2 : N2.PosDef) (h : N.PosDef) (hN : N⁻¹ = N1⁻¹ + N2⁻¹)
    (hM : (doubled K N1 N2 B D).PosDef) (hP : (fromBlocks (K + N) B Bᵀ D).PosDef) (c : ι → ℝ) (c' : κ → ℝ)
    {r1 r2 r : ι → ℝ} (r' : κ → ℝ) (hr : N⁻¹ *ᵥ r = N1⁻¹ *ᵥ r1 + N2⁻¹ *ᵥ r2) :
    Sum.elim c (Sum.elim c c') ⬝ᵥ ((doubled K N1 N2 B D)⁻¹ *ᵥ Sum.elim r1 (Sum.elim r2 r')) =
      Sum.elim c c' ⬝ᵥ ((fromBlocks (K + N) B Bᵀ D)⁻¹ *ᵥ Sum.elim r r') := by
  obtain ⟨w, w', e1, e2⟩ := pool_solve h1 h2 h hN hM hP c c'
  rw [← symm_dot (PosDef.isSymm hM.inv), ← symm_dot (PosDef.isSymm hP.inv), e1, e2]
  exact spread_dot h1 h2 h w w' r' hr

end

section
variable {V : Type} [AddCommGroup V] [Module ℝ V] {S Sj Sp : SO V} {zs ws : List V} {N1 N2 N R : Mat} {y1 y2 y r : List ℝ}

theorem noisyGram_doubled (r1 : N1.r = zs.length) (c1 : N1.c = zs.length) (r2 : N2.r = zs.length) (c2 : N2.c = zs.length) :
    (noisyGram S (zs ++ (zs ++ ws)) (N1.dsum (N2.dsum R))).submatrix
      ((Equiv.sumCongr (Equiv.refl _) (appEquiv zs ws)).trans (appEquiv zs (zs ++ ws)))
      ((Equiv.sumCongr (Equiv.refl _) (appEquiv zs ws)).trans (appEquiv zs (zs ++ ws))) =
    doubled (gram S zs) (N1.sq zs.length) (N2.sq zs.length) (S.gr zs.get ws.get) (S.gr ws.get ws.get + R.sq ws.length) := by
  ext i j
  show S.C _ _ + (N1.dsum (N2.dsum R)).e _ _ = _
  rcases i with i | i | i <;> rcases j with j | j | j <;>
    simp only [Equiv.trans_apply, Equiv.sumCongr_apply, Sum.map_inl, Sum.map_inr, Equiv.refl_apply, get_inl, get_inr, dsum_ll r1 c1,
      dsum_lr r1 c1, dsum_rl r1 c1, dsum_rr r1 c1, dsum_ll r2 c2, dsum_lr r2 c2, dsum_rl r2 c2, dsum_rr r2 c2, add_zero] <;>
    first | rfl | exact S.symm _ _

/-- Observing the same twice, with independent noise, is observing it once. -/
theorem IsUpdate.pool (hj : IsUpdate S Sj (zs ++ (zs ++ ws)) (N1.dsum (N2.dsum R)) (y1 ++ (y2 ++ r)))
    (hp : IsUpdate S Sp (zs ++ ws) (N.dsum R) (y ++ r)) (r1 : N1.r = zs.length) (c1 : N1.c = zs.length) (r2 : N2.r = zs.length)
    (c2 : N2.c = zs.length) (r0 : N.r = zs.length) (c0 : N.c = zs.length) (p1 : (N1.sq zs.length).PosDef)
    (p2 : (N2.sq zs.length).PosDef) (p0 : (N.sq zs.length).PosDef)
    (hN : (N.sq zs.length)⁻¹ = (N1.sq zs.length)⁻¹ + (N2.sq zs.length)⁻¹)
    (pj : (noisyGram S (zs ++ (zs ++ ws)) (N1.dsum (N2.dsum R))).PosDef) (pp : (noisyGram S (zs ++ ws) (N.dsum R)).PosDef) :
    (∀ u v, Sj.C u v = Sp.C u v) ∧
    (y1.length = zs.length → y2.length = zs.length → y.length = zs.length → r.length = ws.length →
      ((N.sq zs.length)⁻¹ *ᵥ fun i => y.getD i 0) =
        ((N1.sq zs.length)⁻¹ *ᵥ fun i => y1.getD i 0) + ((N2.sq zs.length)⁻¹ *ᵥ fun i => y2.getD i 0) → ∀ u, Sj.E u = Sp.E u) := by
  set e := (Equiv.sumCongr (Equiv.refl (Fin zs.length)) (appEquiv zs ws)).trans (appEquiv zs (zs ++ ws)) with he
  have k1 := noisyGram_doubled (S := S) (ws := ws) (R := R) r1 c1 r2 c2
  have k2 := noisyGram_blocks (S := S) (zs2 := ws) (n2 := R) r0 c0
  have pj' : (doubled (gram S zs) (N1.sq zs.length) (N2.sq zs.length) (S.gr zs.get ws.get) (S.gr ws.get ws.get + R.sq ws.length)).PosDef := by
    rw [← k1]; exact pj.submatrix e.injective
  have pp' : (fromBlocks (gram S zs + N.sq zs.length) (S.gr zs.get ws.get) (S.gr zs.get ws.get)ᵀ (S.gr ws.get ws.get + R.sq ws.length)).PosDef := by
    have := pp.submatrix (appEquiv zs ws).injective
    rwa [k2] at this
  have g1 : (zs ++ (zs ++ ws)).get ∘ e = Sum.elim zs.get (Sum.elim zs.get ws.get) := by
    funext a
    rcases a with a | a | a <;> simp [he, get_inl, get_inr, -List.get_eq_getElem]
  have v1 : ∀ u, S.cv (Sum.elim zs.get (Sum.elim zs.get ws.get)) u = Sum.elim (covs S zs u) (Sum.elim (covs S zs u) (covs S ws u)) := by
    intro u; funext a; rcases a with a | a | a <;> rfl
  have v2 : ∀ u, S.cv (Sum.elim zs.get ws.get) u = Sum.elim (covs S zs u) (covs S ws u) := by
    intro u; funext a; rcases a with a | a <;> rfl
  refine ⟨fun u v => ?_, fun l1 l2 l0 lr hy u => ?_⟩
  · rw [hj.C_upd pj, hp.C_upd pp, ← SO.updC_reindex S _ e, ← SO.updC_reindex S _ (appEquiv zs ws), k1, k2, g1, get_app]
    unfold SO.updC
    rw [v1, v1, v2, v2]
    congr 1
    exact pool_quad p1 p2 p0 hN pj' pp' _ _ _ (by rw [hN, add_mulVec])
  · rw [hj.E_upd pj (by simp [l1, l2, lr]), hp.E_upd pp (by simp [l0, lr]), ← SO.updE_reindex S _ e,
      ← SO.updE_reindex S _ (appEquiv zs ws), k1, k2, g1, get_app]
    unfold SO.updE
    rw [v1, v2]
    congr 1
    have w1 : (fun b : Fin (zs ++ (zs ++ ws)).length => (y1 ++ (y2 ++ r)).getD b 0 - S.E ((zs ++ (zs ++ ws)).get b)) ∘ e =
        Sum.elim (fun i : Fin zs.length => y1.getD i 0 - S.E (zs.get i)) (Sum.elim (fun i : Fin zs.length => y2.getD i 0 - S.E (zs.get i))
          (fun i : Fin ws.length => r.getD i 0 - S.E (ws.get i))) := by
      funext a
      rcases a with a | a | a <;> simp only [he, Function.comp_apply, Equiv.trans_apply, Equiv.sumCongr_apply, Sum.map_inl, Sum.map_inr,
        Equiv.refl_apply, get_inl, get_inr, getD_inl _ _ l1, getD_inr _ _ l1, getD_inl _ _ l2, getD_inr _ _ l2, Sum.elim_inl, Sum.elim_inr]
    have w2 : (fun b : Fin (zs ++ ws).length => (y ++ r).getD b 0 - S.E ((zs ++ ws).get b)) ∘ appEquiv zs ws =
        Sum.elim (fun i : Fin zs.length => y.getD i 0 - S.E (zs.get i)) (fun i : Fin ws.length => r.getD i 0 - S.E (ws.get i)) := by
      funext a
      rcases a with a | a <;> simp only [Function.comp_apply, get_inl, get_inr, getD_inl _ _ l0, getD_inr _ _ l0, Sum.elim_inl, Sum.elim_inr]
    rw [w1, w2]
    refine pool_quad p1 p2 p0 hN pj' pp' _ _ _ ?_
    have f : ∀ y : List ℝ, (fun i : Fin zs.length => y.getD i 0 - S.E (zs.get i)) = (fun i : Fin zs.length => y.getD i 0) - fun i => S.E (zs.get i) :=
      fun y => rfl
    rw [f, f, f, mulVec_sub, mulVec_sub, mulVec_sub, hy, hN, add_mulVec]
    abel

/-- If the covariance matrix of both observations is positive definite, so is that of the one. -/
theorem noisyGram_pool (r1 : N1.r = zs.length) (c1 : N1.c = zs.length) (r2 : N2.r = zs.length)
    (c2 : N2.c = zs.length) (r0 : N.r = zs.length) (c0 : N.c = zs.length) (p1 : (N1.sq zs.length).PosDef)
    (p2 : (N2.sq zs.length).PosDef) (p0 : (N.sq zs.length).PosDef)
    (hN : (N.sq zs.length)⁻¹ = (N1.sq zs.length)⁻¹ + (N2.sq zs.length)⁻¹)
    (pj : (noisyGram S (zs ++ (zs ++ ws)) (N1.dsum (N2.dsum R))).PosDef) : (noisyGram S (zs ++ ws) (N.dsum R)).PosDef := by
  have k1 := noisyGram_doubled (S := S) (ws := ws) (R := R) r1 c1 r2 c2
  have k2 := noisyGram_blocks (S := S) (zs2 := ws) (n2 := R) r0 c0
  have pj' : (doubled (gram S zs) (N1.sq zs.length) (N2.sq zs.length) (S.gr zs.get ws.get) (S.gr ws.get ws.get + R.sq ws.length)).PosDef := by
    rw [← k1]; exact pj.submatrix (Equiv.injective _)
  have hD : (S.gr ws.get ws.get + R.sq ws.length).IsSymm := by
    have := PosDef.isSymm pj'
    ext i j
    exact congrFun (congrFun this.eq (.inr (.inr i))) (.inr (.inr j))
  have := pooled_posDef p1 p2 p0 hN (gram_symm S zs) hD pj'
  have e : noisyGram S (zs ++ ws) (N.dsum R) =
      (fromBlocks (gram S zs + N.sq zs.length) (S.gr zs.get ws.get) (S.gr zs.get ws.get)ᵀ (S.gr ws.get ws.get + R.sq ws.length)).submatrix
        (appEquiv zs ws).symm (appEquiv zs ws).symm := by
    rw [show gram S zs + N.sq zs.length = noisyGram S zs N from rfl, ← k2, submatrix_submatrix]
    simp
  rw [e]
  exact this.submatrix (Equiv.injective _)

end
end Stheno
