import Verif.Total

/-!
# Evaluation of sparse approximations returns

As `Verif.Total`, for means and kernels given pseudo-observations. Inducing points and data may be of single-output processes or of cross
processes at tuples of FDDs.
-/

namespace Stheno

open Matrix

section
variable {lm : MId → PId → Option MExpr} {lk : MId → PId → PId → Option KExpr} {X Y : Input → Prop}
  {kij kzi kzj kzz kzx kxx : KExpr} {o : PseudoData}

/-- `_compute` up to line 316 returns `g`. -/
def RunG (lm : MId → PId → Option MExpr) (lk : MId → PId → PId → Option KExpr) (kzz kzx kxx : KExpr) (o : PseudoData) (g : Ingredients) :
    Prop := ∃ n, stepIngredients (ev lm lk n) kzz kzx kxx o = some g

theorem RunG.le {g : Ingredients} (h : RunG lm lk kzz kzx kxx o g) :
    ∃ n, ∀ n', n ≤ n' → stepIngredients (ev lm lk n') kzz kzx kxx o = some g := by
  obtain ⟨n, h⟩ := h
  exact ⟨n, fun n' hn => stepIngredients_mono (ev_le hn) _ _ _ _ _ h⟩

/-! ### The computation returns -/

/-- Whenever the matrices evaluate, `K_z` can be factorised and `K_n` is positive. -/
def SDAt (lm : MId → PId → Option MExpr) (lk : MId → PId → PId → Option KExpr) (kzz kzx kxx : KExpr) (o : PseudoData) : Prop :=
  ∀ A K Z u, RunK lm lk kzz o.z o.z A → A.add o.noiseZ = some K → RunK lm lk kzx o.z o.x Z → RunD lm lk kxx o.x o.x u →
    u.length = Z.c → (K.sq K.r).PosDef ∧ ∀ j : Fin Z.c, 0 < knDiag o.method (K.sq K.r) (fun i j => Z.e i j : Matrix (Fin K.r) (Fin Z.c) ℝ)
      (fun j => u.getD j 0) (fun j => o.noiseX.mat.e j j) j

/-- Noise and data have the right sizes. -/
structure PseudoData.Fit (o : PseudoData) : Prop where
  zr : o.noiseZ.r = numElements o.z
  zc : o.noiseZ.c = numElements o.z
  xr : o.noiseX.mat.r = numElements o.x
  xc : o.noiseX.mat.c = numElements o.x
  y : o.y.length = numElements o.x

theorem knDiag_dtc {n k : ℕ} (Kz : Matrix (Fin n) (Fin n) ℝ) (Kzx : Matrix (Fin n) (Fin k) ℝ) (kx kx' noise : Fin k → ℝ) :
    knDiag .dtc Kz Kzx kx noise = knDiag .dtc Kz Kzx kx' noise := rfl

section
variable (hz : TotK lm lk kzz (· = o.z) (· = o.z)) (hzx : TotK lm lk kzx (· = o.z) (· = o.x))
  (hxx : TotD lm lk kxx (· = o.x) (· = o.x)) (hn : o.Fit) (hp : SDAt lm lk kzz kzx kxx o)
include hz hzx hxx hn hp

theorem TotK.ingredients : ∃ g, RunG lm lk kzz kzx kxx o g ∧ g.n = numElements o.z ∧ g.k = numElements o.x := by
  obtain ⟨A, hA, sA⟩ := hz.run rfl rfl
  obtain ⟨K, hK, rK, cK⟩ := Mat.add_shape sA ⟨hn.zr, hn.zc⟩
  obtain ⟨Z, hZ, rZ, cZ⟩ := hzx.run rfl rfl
  obtain ⟨u, hu, lu⟩ := hxx.run rfl rfl rfl
  obtain ⟨h1, h2⟩ := hp A K Z u hA hK hZ hu (lu.trans cZ.symm)
  obtain ⟨n1, hA⟩ := hA.le
  obtain ⟨n2, hZ⟩ := hZ.le
  obtain ⟨n3, hu⟩ := hu.le
  obtain ⟨kx, hkx, hpos⟩ : ∃ kx : Fin Z.c → ℝ, stepKx (ev lm lk (n1 + n2 + n3)) kxx o Z.c = some kx ∧
      ∀ j : Fin Z.c, 0 < knDiag o.method (K.sq K.r) (fun i j => Z.e i j : Matrix (Fin K.r) (Fin Z.c) ℝ)
        kx (fun j => o.noiseX.mat.e j j) j := by
    unfold stepKx
    cases hm : o.method with
    | dtc =>
      refine ⟨0, rfl, ?_⟩
      rw [hm] at h2
      exact h2
    | vfe =>
      rw [hm] at h2
      refine ⟨_, ?_, h2⟩
      show (((ev lm lk (n1 + n2 + n3)).D kxx o.x o.x) >>= _) = _
      rw [hu _ (by omega)]
      exact if_pos (lu.trans cZ.symm)
    | fitc =>
      rw [hm] at h2
      refine ⟨_, ?_, h2⟩
      show (((ev lm lk (n1 + n2 + n3)).D kxx o.x o.x) >>= _) = _
      rw [hu _ (by omega)]
      exact if_pos (lu.trans cZ.symm)
  refine ⟨⟨K.r, Z.c, K.sq K.r, fun i j => Z.e i j, kx, fun j => o.noiseX.mat.e j j⟩, ⟨n1 + n2 + n3, ?_⟩, rK, cZ⟩
  unfold stepIngredients
  rw [stepKz_of (hA _ (by omega : n1 ≤ n1 + n2 + n3)) hK (rK.trans cK.symm) h1]
  show ((ev lm lk (n1 + n2 + n3)).K kzx o.z o.x >>= _) = _
  rw [hZ _ (by omega : n2 ≤ n1 + n2 + n3)]
  show (if Z.r = K.r ∧ o.noiseX.mat.r = Z.c ∧ o.noiseX.mat.c = Z.c then _ else _) = _
  rw [if_pos ⟨rZ.trans rK.symm, hn.xr.trans cZ.symm, hn.xc.trans cZ.symm⟩, hkx]
  exact if_pos hpos

theorem TotK.pseudo (hX : ∀ x, X x → x.IsAtom) (hY : ∀ y, Y y → y.IsAtom) (h : TotK lm lk kij X Y)
    (hi : TotK lm lk kzi (· = o.z) X) (hj : TotK lm lk kzj (· = o.z) Y) :
    TotK lm lk (.pseudo kij kzi kzj kzz kzx kxx o) X Y := by
  obtain ⟨g, hg, ng, kg⟩ := TotK.ingredients hz hzx hxx hn hp
  obtain ⟨n1, h⟩ := h.le
  obtain ⟨n2, hg⟩ := hg.le
  obtain ⟨n3, hi⟩ := hi.le
  obtain ⟨n4, hj⟩ := hj.le
  refine TotK.intro hX hY ⟨n1 + n2 + n3 + n4, fun x y hx hy => ?_⟩
  obtain ⟨A, hA, sA⟩ := h _ (by omega : n1 ≤ n1 + n2 + n3 + n4) x y hx hy
  obtain ⟨B, hB, rB, cB⟩ := hi _ (by omega : n3 ≤ n1 + n2 + n3 + n4) o.z x rfl hx
  obtain ⟨C, hC, rC, cC⟩ := hj _ (by omega : n4 ≤ n1 + n2 + n3 + n4) o.z y rfl hy
  obtain ⟨P, hP, sP⟩ := Mat.sub_shape (B := ⟨B.c, C.c, fun i j => ∑ a : Fin g.n, ∑ b : Fin g.n,
    B.e a i * g.Kz⁻¹ a b * C.e b j⟩) sA ⟨cB, cC⟩
  simp only [stepKAtom, hA, hB, hC, hg _ (by omega : n2 ≤ n1 + n2 + n3 + n4)]
  show ∃ M, (Mat.quad g.Kz⁻¹ B C >>= fun q => A.sub q >>= fun p => Mat.quad (g.A o)⁻¹ B C >>= p.add) = some M ∧ _
  rw [show Mat.quad g.Kz⁻¹ B C = _ from if_pos ⟨rB.trans ng.symm, rC.trans ng.symm⟩]
  show ∃ M, (A.sub _ >>= _) = some M ∧ _
  rw [hP]
  show ∃ M, (Mat.quad (g.A o)⁻¹ B C >>= P.add) = some M ∧ _
  rw [show Mat.quad (g.A o)⁻¹ B C = _ from if_pos ⟨rB.trans ng.symm, rC.trans ng.symm⟩]
  exact Mat.add_shape sP ⟨cB, cC⟩

theorem TotD.pseudo (hX : ∀ x, X x → x.IsAtom) (hY : ∀ y, Y y → y.IsAtom) (h : TotD lm lk kij X Y)
    (hi : TotK lm lk kzi (· = o.z) X) (hj : TotK lm lk kzj (· = o.z) Y) :
    TotD lm lk (.pseudo kij kzi kzj kzz kzx kxx o) X Y := by
  obtain ⟨g, hg, ng, kg⟩ := TotK.ingredients hz hzx hxx hn hp
  obtain ⟨n1, h⟩ := h.le
  obtain ⟨n2, hg⟩ := hg.le
  obtain ⟨n3, hi⟩ := hi.le
  obtain ⟨n4, hj⟩ := hj.le
  refine TotD.intro hX hY ⟨n1 + n2 + n3 + n4, fun x y hx hy hxy => ?_⟩
  obtain ⟨A, hA, sA⟩ := h _ (by omega : n1 ≤ n1 + n2 + n3 + n4) x y hx hy hxy
  obtain ⟨B, hB, rB, cB⟩ := hi _ (by omega : n3 ≤ n1 + n2 + n3 + n4) o.z x rfl hx
  obtain ⟨C, hC, rC, cC⟩ := hj _ (by omega : n4 ≤ n1 + n2 + n3 + n4) o.z y rfl hy
  obtain ⟨P, hP, sP⟩ := zipCol_of (· - ·) (v := (List.range B.c).map fun i => ∑ a : Fin g.n, ∑ b : Fin g.n,
    B.e a i * g.Kz⁻¹ a b * C.e b i) sA (by simpa using cB)
  simp only [stepDAtom, hA, hB, hC, hg _ (by omega : n2 ≤ n1 + n2 + n3 + n4)]
  show ∃ M, (Mat.quadDiag g.Kz⁻¹ B C >>= fun q => zipCol (· - ·) A q >>= fun p => Mat.quadDiag (g.A o)⁻¹ B C >>= zipCol (· + ·) p)
    = some M ∧ _
  rw [show Mat.quadDiag g.Kz⁻¹ B C = _ from if_pos ⟨rB.trans ng.symm, rC.trans ng.symm, by rw [cB, cC, hxy]⟩]
  show ∃ M, (zipCol (· - ·) A _ >>= _) = some M ∧ _
  rw [hP]
  show ∃ M, (Mat.quadDiag (g.A o)⁻¹ B C >>= zipCol (· + ·) P) = some M ∧ _
  rw [show Mat.quadDiag (g.A o)⁻¹ B C = _ from if_pos ⟨rB.trans ng.symm, rC.trans ng.symm, by rw [cB, cC, hxy]⟩]
  exact zipCol_of (· + ·) sP (by simpa using cB)

theorem TotM.pseudo {mi mz mx : MExpr} (h : TotM lm lk mi X) (hmz : TotM lm lk mz (· = o.z)) (hmx : TotM lm lk mx (· = o.x))
    (hi : TotK lm lk kzi (· = o.z) X) : TotM lm lk (.pseudo mi mz mx kzi kzz kzx kxx o) X := by
  obtain ⟨g, hg, ng, kg⟩ := TotK.ingredients hz hzx hxx hn hp
  obtain ⟨n1, h⟩ := h.le
  obtain ⟨n2, hg⟩ := hg.le
  obtain ⟨n3, hi⟩ := hi.le
  obtain ⟨n4, hmz⟩ := hmz.le
  obtain ⟨n5, hmx⟩ := hmx.le
  refine ⟨n1 + n2 + n3 + n4 + n5 + 1, fun x hx => ?_⟩
  obtain ⟨v, hv, lv⟩ := h _ (by omega : n1 ≤ n1 + n2 + n3 + n4 + n5) x hx
  obtain ⟨B, hB, rB, cB⟩ := hi _ (by omega : n3 ≤ n1 + n2 + n3 + n4 + n5) o.z x rfl hx
  obtain ⟨u, hu, lu⟩ := hmz _ (by omega : n4 ≤ n1 + n2 + n3 + n4 + n5) o.z rfl
  obtain ⟨u', hu', lu'⟩ := hmx _ (by omega : n5 ≤ n1 + n2 + n3 + n4 + n5) o.x rfl
  simp only [ev_M, stepM, hv, hB, hu, hu', hg _ (by omega : n2 ≤ n1 + n2 + n3 + n4 + n5)]
  show ∃ w, (if u.length = g.n ∧ u'.length = g.k ∧ o.y.length = g.k then _ else _) = some w ∧ _
  rw [if_pos ⟨lu.trans ng.symm, lu'.trans kg.symm, hn.y.trans kg.symm⟩,
    show Mat.tmulVec B (g.Kz⁻¹ *ᵥ fun a : Fin g.n => (u.getD a 0 +
        muShift o.method g.Kz g.Kzx g.kx g.noise (fun j => o.y.getD j 0 - u'.getD j 0) a) - u.getD a 0) = _ from
      if_pos (rB.trans ng.symm)]
  exact zipCol_of (· + ·) lv (by simpa using cB)

end

theorem krev_adk (k : KExpr) : krev (.adk k) = .rev (.adk k) := rfl

end

end Stheno
