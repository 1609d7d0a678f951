import Verif.SoundMo

/-!
# Soundness of posterior kernels and means
-/

namespace Stheno

open Matrix

set_option linter.unusedSectionVars false

variable {V : Type} [AddCommGroup V] [Module ℝ V] {S S' : SO V} {G H Z X : RF V}
variable {lm : MId → PId → Option MExpr} {lk : MId → PId → PId → Option KExpr} {n : ℕ}

/-- `K_z` is the covariance matrix of the noisy observations. -/
theorem stepKz_spec {kzz : KExpr} (hk : SK lm lk n kzz (cov S Z Z)) {z : Input} {zs : List V}
    (hz : Z z = some zs) {noise K : Mat} (hr : noise.r = zs.length) (hc : noise.c = zs.length)
    (h : stepKz (ev lm lk n) kzz z noise = some K) : ∃ e, K = ⟨zs.length, zs.length, e⟩ ∧
      K.sq zs.length = noisyGram S zs noise ∧ (noisyGram S zs noise).PosDef := by
  obtain ⟨A, hA, h⟩ := bind_some h
  obtain ⟨K', hK, h⟩ := bind_some h
  split at h
  · next e =>
    cases h
    have f := hk.K _ _ _ _ hA (cov_of S hz hz)
    obtain ⟨e1, e2, rfl⟩ := Mat.add_some hK
    have hr' : A.r = zs.length := e1.trans hr
    have hc' : A.c = zs.length := e2.trans hc
    have hsq : (Mat.mk A.r A.c fun i j => A.e i j + noise.e i j).sq zs.length = noisyGram S zs noise := by
      ext i j
      show A.e i j + noise.e i j = S.C (zs.get i) (zs.get j) + noise.e i j
      rw [f.e hr' hc' i i.2 j j.2]
      show S.C (zs.getD i 0) (zs.getD j 0) + _ = _
      rw [getD_get i.2, getD_get j.2]
      rfl
    refine ⟨fun i j => A.e i j + noise.e i j, by rw [hr', hc'], hsq, ?_⟩
    rw [← hsq]
    have := e.2
    simp only at this
    rw [hr'] at this
    rw [hr', hc']
    exact this
  · cases h

theorem Mat.sub_of {A B : Mat} (hr : A.r = B.r) (hc : A.c = B.c) :
    A.sub B = some ⟨A.r, A.c, fun i j => A.e i j - B.e i j⟩ := by unfold Mat.sub; rw [if_pos ⟨hr, hc⟩]

theorem Mat.add_of {A B : Mat} (hr : A.r = B.r) (hc : A.c = B.c) :
    A.add B = some ⟨A.r, A.c, fun i j => A.e i j + B.e i j⟩ := by unfold Mat.add; rw [if_pos ⟨hr, hc⟩]

/-- The matrix of `quadSum`. -/
noncomputable def quadMat (S : SO V) (zs : List V) (W : Matrix (Fin zs.length) (Fin zs.length) ℝ)
    (vs ws : List V) : Mat :=
  ⟨vs.length, ws.length, fun i j => quadSum S zs W (vs.getD i 0) (ws.getD j 0)⟩

/-- `k_zi(z, x)ᵀ W k_zj(z, y)` -/
theorem quad_fits {B C M : Mat} {zs vs ws : List V} {W : Matrix (Fin zs.length) (Fin zs.length) ℝ}
    (hB : B.Fits (covMat S zs vs)) (hC : C.Fits (covMat S zs ws)) (h : Mat.quad W B C = some M) :
    M.Fits (quadMat S zs W vs ws) := by
  unfold Mat.quad at h
  split at h
  · next e =>
    cases h
    refine ⟨hB.c, hC.c, fun er ec i hi j hj => ?_⟩
    show (∑ a : Fin zs.length, ∑ b : Fin zs.length, B.e a i * W a b * C.e b j) = _
    refine Finset.sum_congr rfl fun (a : Fin zs.length) _ => Finset.sum_congr rfl fun (b : Fin zs.length) _ => ?_
    rw [hB.e e.1 er a a.2 i hi, hC.e e.2 ec b b.2 j hj]
    show S.C (zs.getD a 0) (vs.getD i 0) * _ * S.C (zs.getD b 0) (ws.getD j 0) = _
    rw [getD_get a.2, getD_get b.2]
    rfl
  · cases h

theorem quadDiag_fits {B C : Mat} {u : List ℝ} {zs vs ws : List V} {W : Matrix (Fin zs.length) (Fin zs.length) ℝ}
    (hB : B.Fits (covMat S zs vs)) (hC : C.Fits (covMat S zs ws)) (h : Mat.quadDiag W B C = some u) :
    Mat.FitsD u (quadMat S zs W vs ws) := by
  unfold Mat.quadDiag at h
  split at h
  · next e =>
    cases h
    have h1 : B.c ≤ vs.length := hB.c
    have h2 : C.c ≤ ws.length := hC.c
    refine ⟨by simp only [List.length_map, List.length_range]; exact h1, by simp only [List.length_map, List.length_range, e.2.2]; exact h2, fun er ec i hi => ?_⟩
    have er' : B.c = vs.length := by simp only [List.length_map, List.length_range] at er; exact er
    have ec' : B.c = ws.length := by simp only [List.length_map, List.length_range] at ec; exact ec
    have hi' : i < vs.length := hi
    rw [List.getElem?_map, List.getElem?_range (by omega), Option.map_some]
    congr 1
    refine Finset.sum_congr rfl fun (a : Fin zs.length) _ => Finset.sum_congr rfl fun (b : Fin zs.length) _ => ?_
    rw [hB.e e.1 er' a a.2 i hi, hC.e e.2.1 (e.2.2.symm.trans ec') b b.2 i (by show i < ws.length; omega)]
    show S.C (zs.getD a 0) (vs.getD i 0) * _ * S.C (zs.getD b 0) (ws.getD i 0) = _
    rw [getD_get a.2, getD_get b.2]
    rfl
  · cases h

theorem tmulVec_fits {B : Mat} {u : List ℝ} {zs vs : List V} {w : Fin zs.length → ℝ}
    (hB : B.Fits (covMat S zs vs)) (h : Mat.tmulVec B w = some u) :
    FitsM u (vs.map fun v => ∑ a, S.C (zs.get a) v * w a) := by
  unfold Mat.tmulVec at h
  split at h
  · next e =>
    cases h
    have h1 : B.c ≤ vs.length := hB.c
    refine ⟨by simpa using h1, fun er => ?_⟩
    have er' : B.c = vs.length := by simpa using er
    apply List.ext_getElem? fun i => ?_
    rw [List.getElem?_map, List.getElem?_map]
    by_cases hi : i < vs.length
    · rw [List.getElem?_range (by omega), List.getElem?_eq_getElem hi, Option.map_some, Option.map_some]
      congr 1
      refine Finset.sum_congr rfl fun a _ => ?_
      rw [hB.e e er' a a.2 i hi]
      show S.C (zs.getD a 0) (vs.getD i 0) * _ = _
      rw [getD_get a.2, getD_get hi]
      rfl
    · rw [List.getElem?_eq_none (by simp; omega), List.getElem?_eq_none (by omega)]
      rfl
  · cases h

/-- The posterior kernel of exact observations. -/
theorem AK.post {kij kzi kzj kzz : KExpr} {z : Input} {zs : List V} {noise : Mat} {y : List ℝ}
    (hz : Z z = some zs) (hu : IsUpdate S S' zs noise y) (h1 : AK lm lk n kij (cov S G H))
    (h2 : SK lm lk n kzi (cov S Z G)) (h3 : SK lm lk n kzj (cov S Z H)) (h4 : SK lm lk n kzz (cov S Z Z)) :
    AK lm lk n (.post kij kzi kzj z kzz noise) (cov S' G H) := by
  refine AK.intro (by simp) (fun n' hn x y M T hx hy hM hT => ?_) (fun n' hn x y u T hx hy hM hT => ?_)
  · obtain ⟨A, hA, hM⟩ := bind_some hM
    obtain ⟨K, hK, hM⟩ := bind_some hM
    obtain ⟨B, hB, hM⟩ := bind_some hM
    obtain ⟨C, hC, hM⟩ := bind_some hM
    obtain ⟨Q, hQ, hM'⟩ := bind_some hM
    obtain ⟨vs, ws, hv, hw, rfl⟩ := cov_some S' hT
    obtain ⟨e, rfl, hsq, hp⟩ := stepKz_spec (h4.mono hn.le) hz hu.r hu.c hK
    have fA := (h1.mono hn.le).K _ _ _ _ hx hy hA (cov_of S hv hw)
    have fB := (h2.mono hn.le).K _ _ _ _ hB (cov_of S hz hv)
    have fC := (h3.mono hn.le).K _ _ _ _ hC (cov_of S hz hw)
    rw [hsq] at hQ
    refine (fA.sub (quad_fits fB fC hQ) hM' (Mat.sub_of rfl rfl)).congr ⟨rfl, rfl, fun i _ j _ => ?_⟩
    exact (hu.C hp _ _).symm
  · obtain ⟨A, hA, hM⟩ := bind_some hM
    obtain ⟨K, hK, hM⟩ := bind_some hM
    obtain ⟨B, hB, hM⟩ := bind_some hM
    obtain ⟨C, hC, hM⟩ := bind_some hM
    obtain ⟨Q, hQ, hM'⟩ := bind_some hM
    obtain ⟨vs, ws, hv, hw, rfl⟩ := cov_some S' hT
    obtain ⟨e, rfl, hsq, hp⟩ := stepKz_spec (h4.mono hn.le) hz hu.r hu.c hK
    have fA := (h1.mono hn.le).D _ _ _ _ hx hy hA (cov_of S hv hw)
    have fB := (h2.mono hn.le).K _ _ _ _ hB (cov_of S hz hv)
    have fC := (h3.mono hn.le).K _ _ _ _ hC (cov_of S hz hw)
    rw [hsq] at hQ
    refine (fA.sub (quadDiag_fits fB fC hQ) hM' (Mat.sub_of rfl rfl)).congr ⟨rfl, rfl, fun i _ j _ => ?_⟩
    exact (hu.C hp _ _).symm

/-- The posterior mean of exact observations. -/
theorem SM.post {mi mz : MExpr} {kzi kzz : KExpr} {z : Input} {zs : List V} {noise : Mat} {y : List ℝ}
    (hz : Z z = some zs) (hu : IsUpdate S S' zs noise y) (h1 : SM lm lk n mi (expect S G))
    (h0 : SM lm lk n mz (expect S Z)) (h2 : SK lm lk n kzi (cov S Z G)) (h4 : SK lm lk n kzz (cov S Z Z)) :
    SM lm lk n (.post mi mz kzi z kzz noise y) (expect S' G) := by
  refine SM.intro fun n' hn x u t hM ht => ?_
  obtain ⟨A, hA, hM⟩ := bind_some hM
  obtain ⟨K, hK, hM⟩ := bind_some hM
  obtain ⟨mv, hmv, hM⟩ := bind_some hM
  obtain ⟨B, hB, hM⟩ := bind_some hM
  split at hM
  · next e =>
    obtain ⟨Q, hQ, hM'⟩ := bind_some hM
    obtain ⟨vs, hv, rfl⟩ := expect_some ht
    obtain ⟨e', rfl, hsq, hp⟩ := stepKz_spec (h4.mono hn.le) hz hu.r hu.c hK
    have fA := h1.fits hn.le hA (expect_of hv)
    have fm := h0.fits hn.le hmv (expect_of hz)
    have fB := (h2.mono hn.le).K _ _ _ _ hB (cov_of S hz hv)
    have emv : mv = zs.map S.E := fm.2 (by simpa using e.1)
    subst emv
    rw [hsq] at hQ
    have r := fA.zip (tmulVec_fits fB hQ) hM' (by simp)
    convert r using 1
    rw [List.zipWith_map, List.zipWith_self]
    refine List.map_congr_left fun v _ => ?_
    rw [hu.E hp e.2]
    congr 1
    refine Finset.sum_congr rfl fun a _ => ?_
    congr 3
    funext b
    have hb : b < (zs.map S.E).length := by simpa using b.2
    rw [getD_get_real hb, List.getElem_map]
    rfl
  · cases hM

/-! ## Inducing points -/

/-- The ingredients are the matrices of covariances. -/
theorem ingredients_spec {kzz kzx kxx : KExpr} (hzz : SK lm lk n kzz (cov S Z Z))
    (hzx : SK lm lk n kzx (cov S Z X)) (hxx : SK lm lk n kxx (cov S X X)) {o : PseudoData} {zs xs : List V}
    (hz : Z o.z = some zs) (hx : X o.x = some xs) (hu : IsSparseUpdate S S' zs xs o) {g : Ingredients}
    (h : stepIngredients (ev lm lk n) kzz kzx kxx o = some g) :
    ∃ kx, g = ⟨zs.length, xs.length, noisyGram S zs o.noiseZ, crossGram S zs xs, kx, fun j => o.noiseX.mat.e j j⟩ ∧
      (noisyGram S zs o.noiseZ).PosDef ∧ (o.method ≠ .dtc → kx = fun j => S.C (xs.get j) (xs.get j)) ∧
      ∀ j, 0 < knDiag o.method (noisyGram S zs o.noiseZ) (crossGram S zs xs) kx (fun j => o.noiseX.mat.e j j) j := by
  obtain ⟨K, hK, h⟩ := bind_some h
  obtain ⟨Z', hZ', h⟩ := bind_some h
  split at h
  · next e =>
    obtain ⟨kx, hkx, h⟩ := bind_some h
    split at h
    · next hpos =>
      cases h
      obtain ⟨e', rfl, hsq, hp⟩ := stepKz_spec hzz hz hu.zr hu.zc hK
      have fZ := hzx.K _ _ _ _ hZ' (cov_of S hz hx)
      obtain ⟨r, c, e0⟩ := Z'
      have hr : r = zs.length := e.1
      have hc : c = xs.length := e.2.1.symm.trans hu.xr
      subst hr hc
      have hZe : (fun i j => e0 i j : Matrix (Fin zs.length) (Fin xs.length) ℝ) = crossGram S zs xs := by
        ext i j
        refine (fZ.e rfl rfl i i.2 j j.2).trans ?_
        show S.C (zs.getD i 0) (xs.getD j 0) = _
        rw [getD_get i.2, getD_get j.2]
        rfl
      refine ⟨kx, ?_, hp, fun hm => ?_, ?_⟩
      · simp only [hsq]
        rw [← hZe]
      · unfold stepKx at hkx
        split at hkx
        · next hd => exact absurd hd hm
        · obtain ⟨v, hv, hkx⟩ := bind_some hkx
          split at hkx
          · next hl =>
            cases hkx
            have f := hxx.D _ _ _ _ hv (cov_of S hx hx)
            funext j
            have := f.e hl hl j j.2
            rw [List.getD_eq_getElem?_getD, this]
            show S.C (xs.getD j 0) (xs.getD j 0) = _
            rw [getD_get j.2]
            rfl
          · cases hkx
      · rw [← hZe]
        intro j
        have := hpos j
        simp only [hsq] at this
        exact this
    · cases h
  · cases h

theorem sparseNoise_congr {k m : ℕ} {μ : Method} {Kz : Matrix (Fin m) (Fin m) ℝ} {Kzx : Matrix (Fin m) (Fin k) ℝ}
    {kx kx' noise : Fin k → ℝ} (h : μ ≠ .dtc → kx = kx') :
    sparseNoise μ Kz Kzx kx noise = sparseNoise μ Kz Kzx kx' noise := by
  cases μ with
  | vfe => rfl
  | fitc => rw [h (by simp)]
  | dtc => rfl

theorem AK.pseudo {kij kzi kzj kzz kzx kxx : KExpr} {zs xs : List V} {o : PseudoData}
    (hz : Z o.z = some zs) (hx : X o.x = some xs) (hu : IsSparseUpdate S S' zs xs o)
    (h1 : AK lm lk n kij (cov S G H))
    (h2 : SK lm lk n kzi (cov S Z G)) (h3 : SK lm lk n kzj (cov S Z H)) (h4 : SK lm lk n kzz (cov S Z Z))
    (h5 : SK lm lk n kzx (cov S Z X)) (h6 : SK lm lk n kxx (cov S X X)) :
    AK lm lk n (.pseudo kij kzi kzj kzz kzx kxx o) (cov S' G H) := by
  have hA' : ∀ {kx : Fin xs.length → ℝ}, (noisyGram S zs o.noiseZ).PosDef →
      (o.method ≠ .dtc → kx = fun j => S.C (xs.get j) (xs.get j)) →
      subspaceA o.method (noisyGram S zs o.noiseZ) (crossGram S zs xs) kx (fun j => o.noiseX.mat.e j j) =
      sparseA o.method (noisyGram S zs o.noiseZ) (crossGram S zs xs) (fun j => S.C (xs.get j) (xs.get j))
        (fun j => o.noiseX.mat.e j j) := by
    intro kx hp hkx
    rw [subspaceA_eq _ _ _ _ hp]
    unfold sparseA
    rw [sparseNoise_congr hkx]
  refine AK.intro (by simp) (fun n' hn x y M T hx' hy' hM hT => ?_) (fun n' hn x y u T hx' hy' hM hT => ?_)
  · obtain ⟨A, hA, hM⟩ := bind_some hM
    obtain ⟨g, hg, hM⟩ := bind_some hM
    obtain ⟨B, hB, hM⟩ := bind_some hM
    obtain ⟨C, hC, hM⟩ := bind_some hM
    obtain ⟨Q, hQ, hM⟩ := bind_some hM
    obtain ⟨P, hP, hM⟩ := bind_some hM
    obtain ⟨R, hR, hM'⟩ := bind_some hM
    obtain ⟨vs, ws, hv, hw, rfl⟩ := cov_some S' hT
    obtain ⟨kx, rfl, hp, hkx, _⟩ := ingredients_spec (h4.mono hn.le) (h5.mono hn.le) (h6.mono hn.le) hz hx hu hg
    have fA := (h1.mono hn.le).K _ _ _ _ hx' hy' hA (cov_of S hv hw)
    have fB := (h2.mono hn.le).K _ _ _ _ hB (cov_of S hz hv)
    have fC := (h3.mono hn.le).K _ _ _ _ hC (cov_of S hz hw)
    simp only [Ingredients.A, hA' hp hkx] at hR
    have fP := fA.sub (quad_fits fB fC hQ) hP (Mat.sub_of rfl rfl)
    refine (fP.add (quad_fits fB fC hR) hM' (Mat.add_of rfl rfl)).congr ⟨rfl, rfl, fun i _ j _ => ?_⟩
    exact (hu.C hp _ _).symm
  · obtain ⟨A, hA, hM⟩ := bind_some hM
    obtain ⟨g, hg, hM⟩ := bind_some hM
    obtain ⟨B, hB, hM⟩ := bind_some hM
    obtain ⟨C, hC, hM⟩ := bind_some hM
    obtain ⟨Q, hQ, hM⟩ := bind_some hM
    obtain ⟨P, hP, hM⟩ := bind_some hM
    obtain ⟨R, hR, hM'⟩ := bind_some hM
    obtain ⟨vs, ws, hv, hw, rfl⟩ := cov_some S' hT
    obtain ⟨kx, rfl, hp, hkx, _⟩ := ingredients_spec (h4.mono hn.le) (h5.mono hn.le) (h6.mono hn.le) hz hx hu hg
    have fA := (h1.mono hn.le).D _ _ _ _ hx' hy' hA (cov_of S hv hw)
    have fB := (h2.mono hn.le).K _ _ _ _ hB (cov_of S hz hv)
    have fC := (h3.mono hn.le).K _ _ _ _ hC (cov_of S hz hw)
    simp only [Ingredients.A, hA' hp hkx] at hR
    have fP := fA.sub (quadDiag_fits fB fC hQ) hP (Mat.sub_of rfl rfl)
    refine (fP.add (quadDiag_fits fB fC hR) hM' (Mat.add_of rfl rfl)).congr ⟨rfl, rfl, fun i _ j _ => ?_⟩
    exact (hu.C hp _ _).symm

theorem SM.pseudo {mi mz mx : MExpr} {kzi kzz kzx kxx : KExpr} {zs xs : List V} {o : PseudoData}
    (hz : Z o.z = some zs) (hx : X o.x = some xs) (hu : IsSparseUpdate S S' zs xs o)
    (h1 : SM lm lk n mi (expect S G)) (h7 : SM lm lk n mx (expect S X))
    (h2 : SK lm lk n kzi (cov S Z G)) (h4 : SK lm lk n kzz (cov S Z Z))
    (h5 : SK lm lk n kzx (cov S Z X)) (h6 : SK lm lk n kxx (cov S X X)) :
    SM lm lk n (.pseudo mi mz mx kzi kzz kzx kxx o) (expect S' G) := by
  refine SM.intro fun n' hn x u t hM ht => ?_
  obtain ⟨A, hA, hM⟩ := bind_some hM
  obtain ⟨g, hg, hM⟩ := bind_some hM
  obtain ⟨mv, hmv, hM⟩ := bind_some hM
  obtain ⟨mxv, hmxv, hM⟩ := bind_some hM
  obtain ⟨B, hB, hM⟩ := bind_some hM
  split at hM
  · next e =>
    obtain ⟨Q, hQ, hM'⟩ := bind_some hM
    obtain ⟨vs, hv, rfl⟩ := expect_some ht
    obtain ⟨kx, rfl, hp, hkx, _⟩ := ingredients_spec (h4.mono hn.le) (h5.mono hn.le) (h6.mono hn.le) hz hx hu hg
    have fA := h1.fits hn.le hA (expect_of hv)
    have fm := h7.fits hn.le hmxv (expect_of hx)
    have fB := (h2.mono hn.le).K _ _ _ _ hB (cov_of S hz hv)
    have emv : mxv = xs.map S.E := fm.2 (by simpa using e.2.1)
    subst emv
    simp only [add_sub_cancel_left] at hQ
    have r := fA.zip (tmulVec_fits fB hQ) hM' (by simp)
    convert r using 1
    rw [List.zipWith_map, List.zipWith_self]
    refine List.map_congr_left fun v _ => ?_
    rw [hu.E hp e.2.2]
    congr 1
    refine Finset.sum_congr rfl fun a _ => ?_
    congr 1
    rw [show (fun a => muShift o.method (noisyGram S zs o.noiseZ) (crossGram S zs xs) kx
      (fun j => o.noiseX.mat.e j j) (fun j => o.y.getD j 0 - (xs.map S.E).getD j 0) a) =
      muShift o.method (noisyGram S zs o.noiseZ) (crossGram S zs xs) kx
      (fun j => o.noiseX.mat.e j j) (fun j => o.y.getD j 0 - (xs.map S.E).getD j 0) from rfl, muShift_eq _ _ _ _ _ hp]
    unfold sparseWeights sparseA
    rw [sparseNoise_congr hkx]
    congr 3
    funext b
    have hb : b < (xs.map S.E).length := by simpa using b.2
    rw [getD_get_real hb, List.getElem_map]
    rfl
  · cases hM

end Stheno
