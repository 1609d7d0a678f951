import Verif.Stack

/-!
# Joint observations

Observations of several groups of random variables at once: how they relate to observing the groups one after
another, and that the order of the groups does not matter.
-/

namespace Stheno

open Matrix

set_option linter.unusedSectionVars false

/-- The block-diagonal matrix with two blocks (`B.block_diag`, contract of `lab`). -/
def Mat.dsum (A B : Mat) : Mat :=
  ⟨A.r + B.r, A.c + B.c, fun i j => if i < A.r then (if j < A.c then A.e i j else 0)
    else if j < A.c then 0 else B.e (i - A.r) (j - A.c)⟩

/-- The block-diagonal matrix with any number of blocks (`B.block_diag(*blocks)`, called at
`stheno/model/observations.py:38`). -/
def Mat.blockDiag : List Mat → Mat
  | [] => ⟨0, 0, fun _ _ => 0⟩
  | A :: As => A.dsum (Mat.blockDiag As)

/-- Positions in a concatenation. -/
def appEquiv {V : Type} (zs ws : List V) : Fin zs.length ⊕ Fin ws.length ≃ Fin (zs ++ ws).length :=
  finSumFinEquiv.trans (finCongr (by simp))

section
variable {V : Type} (zs ws : List V)

@[simp] theorem appEquiv_inl (a : Fin zs.length) : (appEquiv zs ws (.inl a) : ℕ) = a := by simp [appEquiv]

@[simp] theorem appEquiv_inr (a : Fin ws.length) : (appEquiv zs ws (.inr a) : ℕ) = zs.length + a := by simp [appEquiv]

theorem get_inl (a : Fin zs.length) : (zs ++ ws).get (appEquiv zs ws (.inl a)) = zs.get a := by
  simp only [List.get_eq_getElem, appEquiv_inl]
  exact List.getElem_append_left a.2

theorem get_inr (a : Fin ws.length) : (zs ++ ws).get (appEquiv zs ws (.inr a)) = ws.get a := by
  simp only [List.get_eq_getElem, appEquiv_inr]
  rw [List.getElem_append_right (by omega)]
  simp

theorem get_app : (zs ++ ws).get ∘ appEquiv zs ws = Sum.elim zs.get ws.get := by
  funext a
  cases a
  · exact get_inl zs ws _
  · exact get_inr zs ws _

theorem getD_inl {y y' : List ℝ} (hy : y.length = zs.length) (a : Fin zs.length) :
    (y ++ y').getD (appEquiv zs ws (.inl a)) 0 = y.getD a 0 := by
  have := a.2
  rw [appEquiv_inl, List.getD_eq_getElem?_getD, List.getD_eq_getElem?_getD, List.getElem?_append_left (by omega)]

theorem getD_inr {y y' : List ℝ} (hy : y.length = zs.length) (a : Fin ws.length) :
    (y ++ y').getD (appEquiv zs ws (.inr a)) 0 = y'.getD a 0 := by
  rw [appEquiv_inr, List.getD_eq_getElem?_getD, List.getD_eq_getElem?_getD, List.getElem?_append_right (by omega)]
  simp [hy]

theorem dsum_sq {A B : Mat} (hr : A.r = zs.length) (hc : A.c = zs.length) :
    ((A.dsum B).sq (zs ++ ws).length).submatrix (appEquiv zs ws) (appEquiv zs ws) =
      fromBlocks (A.sq zs.length) 0 0 (B.sq ws.length) := by
  ext i j
  rcases i with i | i <;> rcases j with j | j <;> simp [Mat.sq, Mat.dsum, hr, hc]

end

section
variable {V : Type} [AddCommGroup V] [Module ℝ V] {S S' : SO V} {zs : List V} {noise : Mat} {y : List ℝ}

theorem IsUpdate.C_upd (h : IsUpdate S S' zs noise y) (hp : (noisyGram S zs noise).PosDef) (u v : V) :
    S'.C u v = S.updC zs.get (noisyGram S zs noise) u v := by
  rw [h.C hp, quadSum_eq]; rfl

theorem IsUpdate.E_upd (h : IsUpdate S S' zs noise y) (hp : (noisyGram S zs noise).PosDef) (hy : y.length = zs.length)
    (u : V) : S'.E u = S.updE zs.get (noisyGram S zs noise) (fun b => y.getD b 0 - S.E (zs.get b)) u := by
  rw [h.E hp hy]; rfl

/-- Observing one group and then another is observing both at once. -/
theorem IsUpdate.trans {S1 S2 Sj : SO V} {zs1 zs2 : List V} {n1 n2 : Mat} {y1 y2 : List ℝ}
    (h1 : IsUpdate S S1 zs1 n1 y1) (h2 : IsUpdate S1 S2 zs2 n2 y2)
    (hj : IsUpdate S Sj (zs1 ++ zs2) (n1.dsum n2) (y1 ++ y2))
    (p1 : (noisyGram S zs1 n1).PosDef) (p2 : (noisyGram S1 zs2 n2).PosDef)
    (pj : (noisyGram S (zs1 ++ zs2) (n1.dsum n2)).PosDef) :
    (∀ u v, S2.C u v = Sj.C u v) ∧
    (y1.length = zs1.length → y2.length = zs2.length → ∀ u, S2.E u = Sj.E u) := by
  have d1 : IsUnit (noisyGram S zs1 n1).det := isUnit_iff_ne_zero.2 p1.det_pos.ne'
  have d2 : IsUnit (noisyGram S1 zs2 n2).det := isUnit_iff_ne_zero.2 p2.det_pos.ne'
  have hs : (noisyGram S zs1 n1).IsSymm := by
    have := p1.1
    rwa [IsHermitian, conjTranspose_eq_transpose_of_trivial] at this
  have key : (noisyGram S (zs1 ++ zs2) (n1.dsum n2)).submatrix (appEquiv zs1 zs2) (appEquiv zs1 zs2) =
      fromBlocks (noisyGram S zs1 n1) (S.gr zs1.get zs2.get) (S.gr zs1.get zs2.get)ᵀ
        (S.gr zs2.get zs2.get + n2.sq zs2.length) := by
    have hd := dsum_sq zs1 zs2 (B := n2) h1.r h1.c
    ext i j
    have hd := congrFun (congrFun hd i) j
    change S.C _ _ + ((n1.dsum n2).sq (zs1 ++ zs2).length).submatrix (appEquiv zs1 zs2) (appEquiv zs1 zs2) i j = _
    rw [hd]
    rcases i with i | i <;> rcases j with j | j <;>
      simp only [noisyGram, gram, SO.gr, Matrix.add_apply, fromBlocks_apply₁₁, fromBlocks_apply₁₂, fromBlocks_apply₂₁,
        fromBlocks_apply₂₂, get_inl, get_inr, transpose_apply, Matrix.zero_apply, add_zero]
    exact S.symm _ _
  refine ⟨fun u v => ?_, fun l1 l2 u => ?_⟩
  · rw [h2.C_upd p2, hj.C_upd pj, ← SO.updC_reindex S _ (appEquiv zs1 zs2), key, get_app]
    exact SO.updC_updC S zs1.get zs2.get d1 d2 hs (h1.C_upd p1) u v
  · rw [h2.E_upd p2 l2, hj.E_upd pj (by simp [l1, l2]), ← SO.updE_reindex S _ (appEquiv zs1 zs2), key, get_app]
    have := SO.updE_updE S zs1.get zs2.get d1 d2 hs (fun b => y1.getD b 0 - S.E (zs1.get b)) (fun b => y2.getD b 0)
      (h1.C_upd p1) (h1.E_upd p1 l1) u
    refine this.trans ?_
    congr 1
    funext a
    rcases a with a | a
    · simp only [Sum.elim_inl, Function.comp_apply, getD_inl zs1 zs2 l1, get_inl]
    · simp only [Sum.elim_inr, Function.comp_apply, getD_inr zs1 zs2 l1, get_inr]

/-- The same observations in another order. -/
def Reorder (zs : List V) (noise : Mat) (y : List ℝ) (zs' : List V) (noise' : Mat) (y' : List ℝ) : Prop :=
  ∃ e : Fin zs.length ≃ Fin zs'.length, (∀ a, zs'.get (e a) = zs.get a) ∧
    (∀ a b, noise'.e (e a) (e b) = noise.e a b) ∧ ∀ a, y'.getD (e a) 0 = y.getD a 0

theorem Reorder.refl : Reorder zs noise y zs noise y := ⟨Equiv.refl _, fun _ => rfl, fun _ _ => rfl, fun _ => rfl⟩

theorem Reorder.trans {zs' zs'' : List V} {noise' noise'' : Mat} {y' y'' : List ℝ} (h : Reorder zs noise y zs' noise' y')
    (h' : Reorder zs' noise' y' zs'' noise'' y'') : Reorder zs noise y zs'' noise'' y'' := by
  obtain ⟨e, h1, h2, h3⟩ := h
  obtain ⟨e', h1', h2', h3'⟩ := h'
  exact ⟨e.trans e', fun a => (h1' _).trans (h1 a), fun a b => (h2' _ _).trans (h2 a b), fun a => (h3' _).trans (h3 a)⟩

theorem dsum_ll {zs ws : List V} {A B : Mat} (hr : A.r = zs.length) (hc : A.c = zs.length) (i j : Fin zs.length) :
    (A.dsum B).e (appEquiv zs ws (.inl i)) (appEquiv zs ws (.inl j)) = A.e i j := by
  simp [Mat.dsum, hr, hc]

theorem dsum_lr {zs ws : List V} {A B : Mat} (hr : A.r = zs.length) (hc : A.c = zs.length) (i : Fin zs.length)
    (j : Fin ws.length) : (A.dsum B).e (appEquiv zs ws (.inl i)) (appEquiv zs ws (.inr j)) = 0 := by
  simp [Mat.dsum, hr, hc]

theorem dsum_rl {zs ws : List V} {A B : Mat} (hr : A.r = zs.length) (hc : A.c = zs.length) (i : Fin ws.length)
    (j : Fin zs.length) : (A.dsum B).e (appEquiv zs ws (.inr i)) (appEquiv zs ws (.inl j)) = 0 := by
  simp [Mat.dsum, hr, hc]

theorem dsum_rr {zs ws : List V} {A B : Mat} (hr : A.r = zs.length) (hc : A.c = zs.length) (i j : Fin ws.length) :
    (A.dsum B).e (appEquiv zs ws (.inr i)) (appEquiv zs ws (.inr j)) = B.e i j := by
  simp [Mat.dsum, hr, hc]

theorem Reorder.append {zs0 zs' : List V} {n0 noise' : Mat} {y0 y' : List ℝ} (hr : n0.r = zs0.length)
    (hc : n0.c = zs0.length) (hy : y0.length = zs0.length) (h : Reorder zs noise y zs' noise' y') :
    Reorder (zs0 ++ zs) (n0.dsum noise) (y0 ++ y) (zs0 ++ zs') (n0.dsum noise') (y0 ++ y') := by
  obtain ⟨e, h1, h2, h3⟩ := h
  refine ⟨(appEquiv zs0 zs).symm.trans ((Equiv.sumCongr (Equiv.refl _) e).trans (appEquiv zs0 zs')), ?_, ?_, ?_⟩
  · intro a
    obtain ⟨a, rfl⟩ := (appEquiv zs0 zs).surjective a
    rcases a with a | a <;> simp only [Equiv.trans_apply, Equiv.symm_apply_apply, Equiv.sumCongr_apply, Sum.map_inl, Sum.map_inr,
      Equiv.refl_apply, get_inl, get_inr, h1]
  · intro a b
    obtain ⟨a, rfl⟩ := (appEquiv zs0 zs).surjective a
    obtain ⟨b, rfl⟩ := (appEquiv zs0 zs).surjective b
    rcases a with a | a <;> rcases b with b | b <;> simp only [Equiv.trans_apply, Equiv.symm_apply_apply, Equiv.sumCongr_apply,
      Sum.map_inl, Sum.map_inr, Equiv.refl_apply, dsum_ll hr hc, dsum_lr hr hc, dsum_rl hr hc, dsum_rr hr hc, h2]
  · intro a
    obtain ⟨a, rfl⟩ := (appEquiv zs0 zs).surjective a
    rcases a with a | a <;> simp only [Equiv.trans_apply, Equiv.symm_apply_apply, Equiv.sumCongr_apply, Sum.map_inl, Sum.map_inr,
      Equiv.refl_apply, getD_inl _ _ hy, getD_inr _ _ hy, h3]

theorem Reorder.swap {zs1 zs2 : List V} {n1 n2 : Mat} {y1 y2 : List ℝ} (r1 : n1.r = zs1.length) (c1 : n1.c = zs1.length)
    (l1 : y1.length = zs1.length) (r2 : n2.r = zs2.length) (c2 : n2.c = zs2.length) (l2 : y2.length = zs2.length) :
    Reorder (zs1 ++ (zs2 ++ zs)) (n1.dsum (n2.dsum noise)) (y1 ++ (y2 ++ y))
      (zs2 ++ (zs1 ++ zs)) (n2.dsum (n1.dsum noise)) (y2 ++ (y1 ++ y)) := by
  let e1 := appEquiv zs1 (zs2 ++ zs)
  let e2 := appEquiv zs2 zs
  let e3 := appEquiv zs2 (zs1 ++ zs)
  let e4 := appEquiv zs1 zs
  let f1 : Fin zs1.length ⊕ (Fin zs2.length ⊕ Fin zs.length) ≃ _ := (Equiv.sumCongr (Equiv.refl _) e2).trans e1
  let f2 : Fin zs2.length ⊕ (Fin zs1.length ⊕ Fin zs.length) ≃ _ := (Equiv.sumCongr (Equiv.refl _) e4).trans e3
  let s : Fin zs1.length ⊕ (Fin zs2.length ⊕ Fin zs.length) ≃ Fin zs2.length ⊕ (Fin zs1.length ⊕ Fin zs.length) :=
    (Equiv.sumAssoc _ _ _).symm.trans ((Equiv.sumCongr (Equiv.sumComm _ _) (Equiv.refl _)).trans (Equiv.sumAssoc _ _ _))
  have h0 : ∀ a, (f1.symm.trans (s.trans f2)) (f1 a) = f2 (s a) := fun a => by simp
  have g1 : ∀ a, f2 (s (.inl a)) = e3 (.inr (e4 (.inl a))) := fun a => rfl
  have g2 : ∀ a, f2 (s (.inr (.inl a))) = e3 (.inl a) := fun a => rfl
  have g3 : ∀ a, f2 (s (.inr (.inr a))) = e3 (.inr (e4 (.inr a))) := fun a => rfl
  have g4 : ∀ a, f1 (.inl a) = e1 (.inl a) := fun a => rfl
  have g5 : ∀ a, f1 (.inr (.inl a)) = e1 (.inr (e2 (.inl a))) := fun a => rfl
  have g6 : ∀ a, f1 (.inr (.inr a)) = e1 (.inr (e2 (.inr a))) := fun a => rfl
  refine ⟨f1.symm.trans (s.trans f2), ?_, ?_, ?_⟩
  · intro a
    obtain ⟨a, rfl⟩ := f1.surjective a
    rw [h0]
    rcases a with a | a | a <;> simp only [g1, g2, g3, g4, g5, g6, e1, e2, e3, e4, get_inl, get_inr]
  · intro a b
    obtain ⟨a, rfl⟩ := f1.surjective a
    obtain ⟨b, rfl⟩ := f1.surjective b
    rw [h0, h0]
    rcases a with a | a | a <;> rcases b with b | b | b <;> simp only [g1, g2, g3, g4, g5, g6, e1, e2, e3, e4,
      dsum_ll r1 c1, dsum_lr r1 c1, dsum_rl r1 c1, dsum_rr r1 c1, dsum_ll r2 c2, dsum_lr r2 c2, dsum_rl r2 c2, dsum_rr r2 c2]
  · intro a
    obtain ⟨a, rfl⟩ := f1.surjective a
    rw [h0]
    rcases a with a | a | a <;> simp only [g1, g2, g3, g4, g5, g6, e1, e2, e3, e4,
      getD_inl _ _ l1, getD_inr _ _ l1, getD_inl _ _ l2, getD_inr _ _ l2]

/-- The order in which the observed variables are listed does not matter. -/
theorem IsUpdate.reorder {Sj : SO V} {zs' : List V} {noise' : Mat} {y' : List ℝ} (h : IsUpdate S S' zs noise y)
    (hj : IsUpdate S Sj zs' noise' y') (hr : Reorder zs noise y zs' noise' y') (hp : (noisyGram S zs noise).PosDef) :
    (∀ u v, S'.C u v = Sj.C u v) ∧ (y.length = zs.length → y'.length = zs'.length → ∀ u, S'.E u = Sj.E u) := by
  obtain ⟨e, h1, h2, h3⟩ := hr
  have hz : zs'.get ∘ e = zs.get := funext h1
  have hg : (noisyGram S zs' noise').submatrix e e = noisyGram S zs noise := by
    ext i j
    show S.C (zs'.get (e i)) (zs'.get (e j)) + noise'.e (e i) (e j) = S.C (zs.get i) (zs.get j) + noise.e i j
    rw [h1, h1, h2]
  have hp' : (noisyGram S zs' noise').PosDef := by
    have : noisyGram S zs' noise' = (noisyGram S zs noise).submatrix e.symm e.symm := by
      rw [← hg, submatrix_submatrix]; simp
    rw [this]
    exact hp.submatrix e.symm.injective
  refine ⟨fun u v => ?_, fun l l' u => ?_⟩
  · rw [h.C_upd hp, hj.C_upd hp', ← SO.updC_reindex S _ e, hg, hz]
  · rw [h.E_upd hp l, hj.E_upd hp' l', ← SO.updE_reindex S _ e, hg, hz]
    congr 1
    funext a
    simp only [Function.comp_apply, h1, h3]

end

end Stheno
