import Verif.Props.Cache
import Verif.Props.Joint
import Verif.Pseudo
import Verif.Sparse

/-!
# C40 and C41: inducing points

`C40`: inducing points at the data are exact. `C41`: the ELBO is a lower bound.
-/

namespace Stheno

open Matrix

section
variable {V : Type} [AddCommGroup V] [Module ℝ V] {I : Interp V} {ops : List Op} {m : MId} {pu p : PId} {o : PseudoData} {zs xs : List V}

/-- The ingredients of `_compute` are the matrices of covariances. -/
theorem partG_spec (h : I.Reads ops) (hz : I.F m pu o.z = some zs) (hx : I.F m p o.x = some xs) (zr : o.noiseZ.r = zs.length)
    (zc : o.noiseZ.c = zs.length) (xr : o.noiseX.mat.r = xs.length) {g : Ingredients} (hg : partG (runOps ops {}) pu p o m = some g) :
    ∃ kx, g = ⟨zs.length, xs.length, noisyGram (I.S m) zs o.noiseZ, crossGram (I.S m) zs xs, kx, fun j => o.noiseX.mat.e j j⟩ ∧
      (noisyGram (I.S m) zs o.noiseZ).PosDef ∧ (o.method ≠ .dtc → kx = fun j => (I.S m).C (xs.get j) (xs.get j)) ∧
      ∀ j, 0 < knDiag o.method (noisyGram (I.S m) zs o.noiseZ) (crossGram (I.S m) zs xs) kx (fun j => o.noiseX.mat.e j j) j := by
  unfold partG partK at hg
  obtain ⟨⟨Z, K⟩, hK, hg⟩ := bind_some hg
  obtain ⟨Z', hZ, hK⟩ := bind_some hK
  obtain ⟨A, hA, hK⟩ := bind_some hK
  obtain ⟨K', hK', hK⟩ := bind_some hK
  cases hK
  dsimp only at hg
  split at hg
  swap
  · simp at hg
  next hc =>
  obtain ⟨kx, hkx, hg⟩ := bind_some hg
  split at hg
  swap
  · simp at hg
  next hpos =>
  cases hg
  have fA := h.kernel (callK_iff.1 hA) hz hz
  have fZ := h.kernel (callK_iff.1 hZ) hz hx
  obtain ⟨e1, e2, rfl⟩ := Mat.add_some hK'
  obtain ⟨-, ⟨-, hp⟩, hs⟩ := hc
  obtain ⟨Ar, Ac, Ae⟩ := A
  obtain ⟨Zr, Zc, Ze⟩ := Z
  simp only at *
  have hr : Ar = zs.length := e1.trans zr
  have hc' : Ac = zs.length := e2.trans zc
  have hZr : Zr = zs.length := hs.1.trans hr
  have hZc : Zc = xs.length := hs.2.1.symm.trans xr
  subst hr hc' hZr hZc
  have hsq : (Mat.mk zs.length zs.length fun i j => Ae i j + o.noiseZ.e i j).sq zs.length = noisyGram (I.S m) zs o.noiseZ := by
    ext i j
    show Ae i j + o.noiseZ.e i j = (I.S m).C (zs.get i) (zs.get j) + o.noiseZ.e i j
    have := fA.e rfl rfl i i.2 j j.2
    simp only at this
    rw [this]
    show (I.S m).C (zs.getD i 0) (zs.getD j 0) + _ = _
    rw [getD_get i.2, getD_get j.2]
    rfl
  have hZe : Mat.rect ⟨zs.length, xs.length, Ze⟩ zs.length = crossGram (I.S m) zs xs := by
    ext i j
    refine (fZ.e rfl rfl i i.2 j j.2).trans ?_
    show (I.S m).C (zs.getD i 0) (xs.getD j 0) = _
    rw [getD_get i.2, getD_get j.2]
    rfl
  rw [hsq] at hp
  refine ⟨kx, ?_, hp, fun hm => ?_, ?_⟩
  · rw [← hsq, ← hZe]
  · unfold kxDiag at hkx
    split at hkx
    · next hd => exact absurd hd hm
    · obtain ⟨v, hv, hkx⟩ := bind_some hkx
      split at hkx
      · next hl =>
        cases hkx
        have f := h.elwise (callD_iff.1 hv) hx hx
        funext j
        have := f.e hl hl j j.2
        rw [List.getD_eq_getElem?_getD, this]
        show (I.S m).C (xs.getD j 0) (xs.getD j 0) = _
        rw [getD_get j.2]
        rfl
      · cases hkx
  · intro j
    have := hpos j
    rw [hsq, hZe] at this
    exact this

/-- What a fresh object returns as the ELBO, in terms of random variables. -/
theorem elbo_spec (h : I.Reads ops) (hz : I.F m pu o.z = some zs) (hx : I.F m p o.x = some xs) (zr : o.noiseZ.r = zs.length)
    (zc : o.noiseZ.c = zs.length) (xr : o.noiseX.mat.r = xs.length) {r : ℝ} (hr : (getElbo (runOps ops {}) pu p o m {}).2 = some r) :
    ∃ kx, (noisyGram (I.S m) zs o.noiseZ).PosDef ∧ (o.method ≠ .dtc → kx = fun j => (I.S m).C (xs.get j) (xs.get j)) ∧
      (∀ j, 0 < knDiag o.method (noisyGram (I.S m) zs o.noiseZ) (crossGram (I.S m) zs xs) kx (fun j => o.noiseX.mat.e j j) j) ∧
      o.y.length = xs.length ∧
      r = elboOf o.method (noisyGram (I.S m) zs o.noiseZ) (crossGram (I.S m) zs xs) kx (fun j => o.noiseX.mat.e j j)
        fun j => o.y.getD j 0 - (I.S m).E (xs.get j) := by
  rw [(RightP.empty _ pu p o).get_elbo] at hr
  obtain ⟨t, ht, rfl⟩ := Option.map_eq_some_iff.1 hr
  unfold partY at ht
  obtain ⟨g, hg, ht⟩ := bind_some ht
  obtain ⟨mx, hmx, ht⟩ := bind_some ht
  split at ht
  swap
  · simp at ht
  next hl =>
  obtain ⟨mz, hmz, ht⟩ := bind_some ht
  split at ht
  swap
  · simp at ht
  cases ht
  obtain ⟨kx, rfl, hp, hk, hn⟩ := partG_spec h hz hx zr zc xr hg
  refine ⟨kx, hp, hk, hn, hl.2, ?_⟩
  have e := (h.mean (callM_iff.1 hmx) hx).2 hl.1
  subst e
  unfold valElbo
  congr 1
  funext j
  have hb : (j : ℕ) < (xs.map (I.S m).E).length := by simp
  simp only
  rw [getD_get_real hb, List.getElem_map]
  rfl

theorem logpdfFull_center {k : ℕ} (N : Normal k) (y : Fin k → ℝ) : N.logpdfFull y = (⟨0, N.var⟩ : Normal k).logpdfFull fun j => y j - N.mean j := by
  unfold Normal.logpdfFull
  have : ((fun j => y j - N.mean j) - (0 : Fin k → ℝ)) = y - N.mean := by rw [sub_zero]; rfl
  simp only [this]

/-- A diagonal matrix with `n` rows and columns. -/
def Mat.IsDiag (A : Mat) (n : ℕ) : Prop := ∀ i < n, ∀ j < n, i ≠ j → A.e i j = 0

theorem Mat.IsDiag.sq {A : Mat} {k : ℕ} (hd : A.IsDiag k) : A.sq k = Matrix.diagonal fun j : Fin k => A.e j j := by
  ext i j
  rw [diagonal_apply]
  split
  · next e => rw [e]; rfl
  · next e => exact hd i i.2 j j.2 fun h => e (Fin.ext h)

theorem nystrom_eq (S : SO V) (noise : Mat) : nystrom (noisyGram S zs noise) (crossGram S zs xs) = fun i j => quadSum S zs (noisyGram S zs noise)⁻¹ (xs.get i) (xs.get j) := by
  ext i j
  rw [quadSum_eq]
  unfold nystrom
  rw [Matrix.mul_assoc, Matrix.mul_apply]
  refine Finset.sum_congr rfl fun a _ => ?_
  rw [Matrix.mul_apply]
  rfl

/-- What is left of the covariance when the inducing variables are known is a covariance matrix. -/
theorem residual_posSemidef {S : SO V} (hS : S.Pos) {noise : Mat} (hr : noise.r = zs.length) (hc : noise.c = zs.length)
    (hn : (noise.sq zs.length).PosSemidef) (hp : (noisyGram S zs noise).PosDef) :
    (gram S xs - nystrom (noisyGram S zs noise) (crossGram S zs xs)).PosSemidef := by
  have hu := SO.observe_isUpdate (S := S) (zs := zs) (y := []) hr hc
  have := gram_posSemidef (S.observe zs noise []) xs (hu.pos hp hS hn)
  convert this using 1
  rw [nystrom_eq]
  ext i j
  exact (hu.C hp _ _).symm

/-- **C41.** For VFE, and any inducing points: in any reading with nonnegative variances, the ELBO that a fresh object returns is at most the
log-density of the data. -/
theorem C41_reading (h : I.Reads ops) (hS : (I.S m).Pos) (hz : I.F m pu o.z = some zs) (hx : I.F m p o.x = some xs)
    (zr : o.noiseZ.r = zs.length) (zc : o.noiseZ.c = zs.length) (xr : o.noiseX.mat.r = xs.length)
    (hnz : (o.noiseZ.sq zs.length).PosSemidef) (hd : o.noiseX.mat.IsDiag xs.length) (hm : o.method = .vfe)
    {r : ℝ} (hr : (getElbo (runOps ops {}) pu p o m {}).2 = some r) :
    r ≤ (obsNormal (I.S m) xs o.noiseX.mat).logpdfFull fun j => o.y.getD j 0 := by
  obtain ⟨kx, hp, hk, hn, _, rfl⟩ := elbo_spec h hz hx zr zc xr hr
  rw [logpdfFull_center]
  rw [hm] at hn ⊢
  have hn' : ∀ j : Fin xs.length, 0 < o.noiseX.mat.e j j := fun j => by
    have := hn j
    simpa only [knDiag, add_zero] using this
  have hk' : ∀ j, kx j = gram (I.S m) xs j j := fun j => by rw [hk (by rw [hm]; simp)]; rfl
  have := elboOf_le (ybar := fun j => o.y.getD j 0 - (I.S m).E (xs.get j)) hp hn' (K := gram (I.S m) xs) hk'
    (residual_posSemidef hS zr zc hnz hp)
  rwa [← hd.sq] at this

/-- **C41, FITC and DTC.** The ELBO is the log-density of the data under the approximate model, in which the covariance is that of the
predictions from the inducing variables, plus the noise; for FITC also plus what is left of the variances. -/
theorem C41_approx (h : I.Reads ops) (hz : I.F m pu o.z = some zs) (hx : I.F m p o.x = some xs)
    (zr : o.noiseZ.r = zs.length) (zc : o.noiseZ.c = zs.length) (xr : o.noiseX.mat.r = xs.length) (hm : o.method ≠ .vfe)
    {r : ℝ} (hr : (getElbo (runOps ops {}) pu p o m {}).2 = some r) :
    r = (⟨fun j => (I.S m).E (xs.get j), Matrix.of fun i j : Fin xs.length =>
      quadSum (I.S m) zs (noisyGram (I.S m) zs o.noiseZ)⁻¹ (xs.get i) (xs.get j) + if i = j then o.noiseX.mat.e j j +
        (match o.method with
          | .fitc => (I.S m).C (xs.get j) (xs.get j) - quadSum (I.S m) zs (noisyGram (I.S m) zs o.noiseZ)⁻¹ (xs.get j) (xs.get j)
          | _ => 0) else 0⟩ : Normal xs.length).logpdfFull
      fun j => o.y.getD j 0 := by
  obtain ⟨kx, hp, hk, hn, _, rfl⟩ := elbo_spec h hz hx zr zc xr hr
  rw [logpdfFull_center, elboOf_eq hp hn]
  have ht : tracePart o.method (noisyGram (I.S m) zs o.noiseZ) (crossGram (I.S m) zs xs) kx (fun j => o.noiseX.mat.e j j) = 0 := by
    cases e : o.method with
    | vfe => exact absurd e hm
    | fitc => rfl
    | dtc => rfl
  rw [ht, mul_zero, sub_zero]
  congr 2
  ext i j
  rw [Matrix.add_apply, nystrom_eq, diagonal_apply]
  simp only [Matrix.of_apply]
  congr 1
  split
  · next e =>
    subst e
    have hq := congrFun (congrFun (nystrom_eq (xs := xs) (zs := zs) (I.S m) o.noiseZ) i) i
    cases e : o.method with
    | vfe => exact absurd e hm
    | dtc => simp [sparseNoise]
    | fitc =>
      rw [hk (by rw [e]; simp)]
      simp only [sparseNoise]
      unfold nystrom at hq
      rw [hq]
  · rfl

section Self
variable (S : SO V) {noise : Mat}

theorem noisyGram_zero (h0 : ∀ i < xs.length, ∀ j < xs.length, noise.e i j = 0) : noisyGram S xs noise = gram S xs := by
  ext i j
  show _ + noise.e i j = _
  rw [h0 i i.2 j j.2, add_zero]

end Self

/-- **C40, ELBO.** If the inducing variables are the observed variables, then, for VFE, FITC and DTC, the ELBO is the log-density of the data. -/
theorem C40_elbo_reading (h : I.Reads ops) (hz : I.F m pu o.z = some xs) (hx : I.F m p o.x = some xs)
    (zr : o.noiseZ.r = xs.length) (zc : o.noiseZ.c = xs.length) (xr : o.noiseX.mat.r = xs.length)
    (h0 : ∀ i < xs.length, ∀ j < xs.length, o.noiseZ.e i j = 0) (hd : o.noiseX.mat.IsDiag xs.length) {r : ℝ} (hn : ∀ j < xs.length, 0 < o.noiseX.mat.e j j)
    (hr : (getElbo (runOps ops {}) pu p o m {}).2 = some r) :
    r = (obsNormal (I.S m) xs o.noiseX.mat).logpdfFull fun j => o.y.getD j 0 := by
  obtain ⟨kx, hp, hk, _, _, rfl⟩ := elbo_spec h hz hx zr zc xr hr
  rw [noisyGram_zero _ h0] at hp ⊢
  rw [logpdfFull_center]
  have := elboOf_self (ybar := fun j => o.y.getD j 0 - (I.S m).E (xs.get j)) (kx := kx) (noise := fun j : Fin xs.length => o.noiseX.mat.e j j)
    (μ := o.method) hp (fun j hj => by rw [hk hj]; rfl) fun j => hn j j.2
  rw [← hd.sq] at this
  exact this

/-- If the inducing variables are the observed variables, then the approximate update is the exact update. -/
theorem sparse_exact {S S1 S2 : SO V} (hu : IsSparseUpdate S S1 xs xs o) (hu2 : IsUpdate S S2 xs o.noiseX.mat o.y)
    (hp : (noisyGram S xs o.noiseZ).PosDef) (hp2 : (noisyGram S xs o.noiseX.mat).PosDef) (hy : o.y.length = xs.length)
    (h0 : ∀ i < xs.length, ∀ j < xs.length, o.noiseZ.e i j = 0) (hd : o.noiseX.mat.IsDiag xs.length)
    (hn : ∀ j < xs.length, 0 < o.noiseX.mat.e j j) : S1 = S2 := by
  have hn' : ∀ j : Fin xs.length, 0 < o.noiseX.mat.e j j := fun j => hn j j.2
  have e0 := noisyGram_zero (xs := xs) S h0
  have hG : (gram S xs).PosDef := e0 ▸ hp
  have hK : gram S xs + diagonal (fun j : Fin xs.length => o.noiseX.mat.e j j) = noisyGram S xs o.noiseX.mat := by
    rw [← hd.sq]; rfl
  have hc : crossGram S xs xs = gram S xs := rfl
  refine SO.ext' (fun u v => ?_) fun u => ?_
  · rw [hu.C hp, hu2.C hp2, e0]
    have := sparse_inv_self (μ := o.method) (kx := fun j => S.C (xs.get j) (xs.get j)) hG (fun j _ => rfl) hn'
    rw [hK] at this
    rw [← this, quadSum_eq, quadSum_eq, quadSum_eq, sub_mulVec, dotProduct_sub, hc]
    ring
  · rw [hu.E hp hy, hu2.E hp2 hy, e0]
    have := sparseWeights_self (μ := o.method) (kx := fun j => S.C (xs.get j) (xs.get j))
      (ybar := fun b => o.y.getD b 0 - S.E (xs.get b)) hG (fun j _ => rfl) hn'
    rw [hK] at this
    rw [← this]
    rfl

/-- **C40.** If the inducing variables are the observed variables, then, for VFE, FITC and DTC, conditioning gives the same expectations and
covariances of all random variables as conditioning on the exact observation. -/
theorem C40_reading (h : I.Reads ops) (hf : I.Firm ops) {b1 b2 : List Op} {m1 m2 : MId} (g1 : Gives ops b1 m (.pseudo pu p o) m1)
    (g2 : Gives ops b2 m (.exact p o.x o.noiseX.mat o.y) m2) (hz : I.F m pu o.z = some xs) (hx : I.F m p o.x = some xs)
    (h0 : ∀ i < xs.length, ∀ j < xs.length, o.noiseZ.e i j = 0) (hd : o.noiseX.mat.IsDiag xs.length)
    (hn : ∀ j < xs.length, 0 < o.noiseX.mat.e j j) (hne : numElements o.x ≠ 0) : I.S m1 = I.S m2 := by
  obtain ⟨zs', xs', hz', hx', hu⟩ := (g1.law h).2
  rw [hz] at hz'; cases hz'
  rw [hx] at hx'; cases hx'
  obtain ⟨hp, hy⟩ := g1.firm hf xs xs hz hx
  obtain ⟨hp2, _⟩ := g2.firm hf xs hx
  have hu2 : IsUpdate (I.S m) (I.S m2) xs o.noiseX.mat o.y := by
    rcases (g2.law h).2 with ⟨h0, _⟩ | ⟨_, zs, hzs, hu⟩
    · exact absurd h0 hne
    · rw [hx] at hzs; cases hzs; exact hu
  exact sparse_exact hu hu2 hp hp2 hy h0 hd hn

end

/-! ## All notations -/

/-- Ways to write inducing points. -/
inductive WrittenU : UArg → List Fdd → Prop
  | one (f : Fdd) : WrittenU (.one f) [f]
  | many (fs : List Fdd) : WrittenU (.many fs) fs

/-- Within the program `b`, an object for pseudo-observations of the pairs `l` with inducing points `us` is made, in one of the notations of the
code, for processes in the measure `m`. -/
inductive Made (b : List Op) (m : MId) (μ : Method) (us : List Fdd) (l : List (Fdd × Vals)) (o : Obs) : Prop
  | mk {b0 : List Op} {n : ℕ} {ord ord' : List MId} {diag : Bool} {ua : UArg} {as : List Arg} {os : List Op} (hu : WrittenU ua us)
      (hw : Written as l) (ho : mkPseudo (runOps b0 {}) n ord ord' μ diag ua as = some (os, o)) (hb : b0 ++ os <+: b)
      (au : ∀ f ∈ us, Attached (runOps b0 {}) m f.p) (al : ∀ e ∈ l, Attached (runOps b0 {}) m e.1.p)

/-- Within `ops`, and after some events, `m.logpdf(obs)` for pseudo-observations is `r`. -/
inductive LogpdfU (ops : List Op) (m : MId) (μ : Method) (us : List Fdd) (l : List (Fdd × Vals)) (r : ℝ) : Prop
  | mk {es : List Event} {pu p : PId} {o : PseudoData} (hm : Made (Event.ops es) m μ us l (.pseudo pu p o)) (hp : Event.ops es <+: ops)
      (hr : logpdfPseudo (runOps (Event.ops es) {}) m (keptPseudo pu p o [] es {}) (.pseudo pu p o) = some r)

/-- After the program `b`, and within `ops`, the measure `m` is conditioned on pseudo-observations, which makes the measure `m1`. -/
inductive ConditionedU (ops b : List Op) (m : MId) (μ : Method) (us : List Fdd) (l : List (Fdd × Vals)) (m1 : MId) : Prop
  | mk {n : ℕ} {ord : List MId} {os : List Op} {o : Obs} (hm : Made b m μ us l o) (hc : conditionArgs (runOps b {}) n ord m [.obs o] = some os)
      (hp : b ++ os <+: ops) (hh : HasMeasure (runOps b {}) m) (h1 : m1 + 1 = (runOps (b ++ os) {}).ms.length)

/-- FDDs, with numbers for them. -/
noncomputable def padded (us : List Fdd) : List (Fdd × List ℝ) := us.map fun f => (f, List.replicate f.noise.r 0)

theorem padded_noise (us : List Fdd) : (padded us).map (·.1.noise) = us.map (·.noise) := by
  unfold padded; rw [List.map_map]; rfl

section
variable {V : Type} [AddCommGroup V] [Module ℝ V] {I : Interp V} {G : Dom} {D : PId → ℕ} {ops b b' : List Op} {m m1 m2 : MId}
  {μ : Method} {us : List Fdd} {l : List (Fdd × Vals)} {r r' : ℝ} {zssu zss : List (List V)}

theorem mkU_obsOf {ord : List MId} {ua : UArg} {os : List Op} {u : Fdd} (hu : WrittenU ua us) (h : mkU (runOps b {}) ord ua = some (os, u))
    (hb : b ++ os <+: ops) (ha : ∀ f ∈ us, Attached (runOps b {}) m f.p) : ∃ y, ObsOf ops m (padded us) (.exact u.p u.x u.noise y) := by
  cases hu with
  | one f =>
    cases h
    exact ⟨_, .single u _⟩
  | many =>
    obtain ⟨⟨o, f⟩, hc, h⟩ := bind_some h
    cases h
    unfold combine at hc
    simp only at hc
    split at hc
    · cases hc
    next hr =>
    obtain ⟨f', hf, h⟩ := bind_some hc
    cases h
    obtain ⟨k, _, hf⟩ := bind_some hf
    obtain ⟨_, _, hf⟩ := bind_some hf
    cases hf
    cases us with
    | nil => cases hr
    | cons f fs =>
    have hat : Attached (runOps (b ++ [.cross ((f :: fs).map (·.p)) ord]) {}) m (runOps b {}).gps.length := by
      refine ((C32_consistent _).1 _ _).2 ?_
      rw [← after_runOps]
      refine (C32_result b f.p (fs.map fun f : Fdd => f.p) (.cross (f.p :: fs.map fun f : Fdd => f.p) ord) (.inr ⟨ord, rfl⟩) hr m).2 ⟨?_, ?_⟩
      · exact ((C32_consistent _).1 _ _).1 (ha f (by simp))
      · intro q hq
        obtain ⟨e', he', rfl⟩ := List.mem_map.1 hq
        exact ((C32_consistent _).1 _ _).1 (ha e' (by simp [he']))
    have hrun : Runs ops b (.cross ((f :: fs).map (·.p)) ord) (runOps b {}).gps.length := by
      obtain ⟨t, ht⟩ := hb
      exact ⟨⟨t, by rw [← ht]; simp⟩, rfl, m, hat⟩
    have := ObsOf.joint (l := padded (f :: fs)) hrun (attached_pre hat hb) (by
      intro e he
      obtain ⟨e', he', rfl⟩ := List.mem_map.1 he
      exact List.mem_map.2 ⟨e', he', rfl⟩)
    unfold jointObs at this
    refine ⟨(padded (f :: fs)).flatMap (·.2), ?_⟩
    convert this using 2
    · unfold padded; rw [List.map_map]; rfl
    · rw [padded_noise]; rfl

/-- What the object consists of. -/
theorem Made.spec {o : Obs} (hm : Made b m μ us l o) (hb : b <+: ops) (h : I.Reads ops) (ht : Tells (Dead G) D ops) (hl : ∀ e ∈ l, FitsV G e)
    (bu : I.Blocks m (padded us) zssu) (bl : I.Blocks m (l.map available) zss) :
    ∃ pu p d, o = .pseudo pu p d ∧ d.method = μ ∧ I.F m pu d.z = some zssu.flatten ∧ I.F m p d.x = some zss.flatten ∧
      d.noiseZ.r = zssu.flatten.length ∧ d.noiseZ.c = zssu.flatten.length ∧ d.noiseX.mat.r = zss.flatten.length ∧
      d.noiseX.mat.c = zss.flatten.length ∧ d.y = (l.map available).flatMap (·.2) ∧
      (∀ i < zssu.flatten.length, ∀ j < zssu.flatten.length, d.noiseZ.e i j = (Mat.blockDiag (us.map (·.noise))).e i j) ∧
      ∀ i < zss.flatten.length, ∀ j < zss.flatten.length, d.noiseX.mat.e i j = (Mat.blockDiag ((l.map available).map (·.1.noise))).e i j := by
  obtain @⟨b0, _, _, _, _, _, _, _, hu, hw, ho, hb0, au, al⟩ := hm
  obtain ⟨⟨os1, u⟩, h1, ho⟩ := bind_some ho
  obtain ⟨⟨os2, o2⟩, h2, ho⟩ := bind_some ho
  dsimp only at h1 h2 ho
  cases o2 with
  | pseudo => cases ho
  | exact p x noise y =>
  cases ho
  rw [← List.append_assoc] at hb0
  have hb1 := hb0.trans hb
  obtain ⟨y', hO1⟩ := mkU_obsOf hu h1 ((List.prefix_append _ _).trans hb1) au
  have e2 : runOps os1 (runOps b0 {}) = runOps (b0 ++ os1) {} := (List.foldl_append ..).symm
  rw [e2] at h2
  have hO2 := mkObs_obsOf ht hw h2 hb1 hl fun e he => attached_append _ (al e he)
  obtain ⟨_, _, _, _, e, hF1, _, _, hr1, hc1, hN1⟩ := hO1.observes h bu
  cases e
  obtain ⟨_, _, _, _, e, hF2, _, hy, hr2, hc2, hN2⟩ := hO2.observes h bl
  cases e
  rw [padded_noise] at hN1
  exact ⟨_, _, _, rfl, rfl, hF1, hF2, hr1, hc1, hr2, hc2, hy, hN1, hN2⟩

theorem LogpdfU.fresh (e : LogpdfU ops m μ us l r) : ∃ b pu p o, Made b m μ us l (.pseudo pu p o) ∧ b <+: ops ∧
    (getElbo (runOps ops {}) pu p o m {}).2 = some r := by
  obtain ⟨hm, hp, hr⟩ := e
  refine ⟨_, _, _, _, hm, hp, ?_⟩
  dsimp only [logpdfPseudo] at hr
  rw [C42_elbo, (RightP.empty _ _ _ _).get_elbo] at hr
  rw [(RightP.empty _ _ _ _).get_elbo]
  obtain ⟨t, ht, e⟩ := Option.map_eq_some_iff.1 hr
  obtain ⟨t', rfl⟩ := hp
  rw [partY_later _ _ _ (Later.append _ t') ht]
  exact congrArg some e

theorem noisyGram_congr {S : SO V} {zs : List V} {N N' : Mat} (h : ∀ i < zs.length, ∀ j < zs.length, N.e i j = N'.e i j) :
    noisyGram S zs N = noisyGram S zs N' := by
  ext i j
  show _ + N.e i j = _ + N'.e i j
  rw [h i i.2 j j.2]

theorem IsUpdate.congr {S S' : SO V} {zs : List V} {N N' : Mat} {y : List ℝ} (h : IsUpdate S S' zs N y) (hr : N'.r = zs.length)
    (hc : N'.c = zs.length) (he : ∀ i < zs.length, ∀ j < zs.length, N.e i j = N'.e i j) : IsUpdate S S' zs N' y := by
  have := noisyGram_congr (S := S) he
  exact ⟨hr, hc, fun hp => by rw [← this] at hp ⊢; exact h.C hp, fun hp => by rw [← this] at hp ⊢; exact h.E hp⟩

theorem obsNormal_congr {S : SO V} {zs : List V} {N N' : Mat} (h : ∀ i < zs.length, ∀ j < zs.length, N.e i j = N'.e i j) :
    obsNormal S zs N = obsNormal S zs N' := by
  unfold obsNormal
  rw [noisyGram_congr h]

theorem sq_congr {N N' : Mat} {k : ℕ} (h : ∀ i < k, ∀ j < k, N.e i j = N'.e i j) : N.sq k = N'.sq k := by
  ext i j
  exact h i i.2 j j.2

/-! ### Diagonal and positive semi-definite noise -/

theorem dsum_posSemidef {A B : Mat} (hA : (A.sq A.r).PosSemidef) (hc : A.c = A.r) (hB : (B.sq B.r).PosSemidef) :
    ((A.dsum B).sq (A.dsum B).r).PosSemidef := by
  show ((A.dsum B).sq (A.r + B.r)).PosSemidef
  have he : ((A.dsum B).sq (A.r + B.r)).submatrix finSumFinEquiv finSumFinEquiv = fromBlocks (A.sq A.r) 0 0 (B.sq B.r) := by
    ext i j
    rcases i with i | i <;> rcases j with j | j <;>
      simp [Mat.sq, Mat.dsum, hc]
  have hp : (fromBlocks (A.sq A.r) 0 0 (B.sq B.r)).PosSemidef := by
    refine PosSemidef.of_dotProduct_mulVec_nonneg (IsHermitian.fromBlocks hA.1 (by simp) hB.1) fun w => ?_
    have e : star w ⬝ᵥ (fromBlocks (A.sq A.r) 0 0 (B.sq B.r)) *ᵥ w =
        star (w ∘ Sum.inl) ⬝ᵥ A.sq A.r *ᵥ (w ∘ Sum.inl) + star (w ∘ Sum.inr) ⬝ᵥ B.sq B.r *ᵥ (w ∘ Sum.inr) := by
      rw [fromBlocks_mulVec, dotProduct, Fintype.sum_sum_type]
      simp [dotProduct]
    rw [e]
    exact add_nonneg (hA.dotProduct_mulVec_nonneg _) (hB.dotProduct_mulVec_nonneg _)
  rw [← he] at hp
  have := hp.submatrix finSumFinEquiv.symm
  simpa using this

theorem blockDiag_posSemidef : ∀ {Ms : List Mat}, (∀ M ∈ Ms, M.c = M.r ∧ (M.sq M.r).PosSemidef) →
    ((Mat.blockDiag Ms).sq (Mat.blockDiag Ms).r).PosSemidef
  | [], _ => (blockDiag_posDef (Ms := []) (by simp)).posSemidef
  | M :: Ms, h => dsum_posSemidef (h M (by simp)).2 (h M (by simp)).1 (blockDiag_posSemidef fun M hM => h M (by simp [hM]))

theorem blockDiag_isDiag : ∀ {Ms : List Mat}, (∀ M ∈ Ms, M.c = M.r ∧ M.IsDiag M.r) → (Mat.blockDiag Ms).IsDiag (Mat.blockDiag Ms).r
  | [], _ => fun i hi => absurd hi (Nat.not_lt_zero i)
  | M :: Ms, h => by
    have ih := blockDiag_isDiag (Ms := Ms) fun M hM => h M (by simp [hM])
    obtain ⟨hc, hM⟩ := h M (by simp)
    intro i hi j hj hij
    simp only [Mat.blockDiag, Mat.dsum] at hi hj ⊢
    by_cases h1 : i < M.r
    · by_cases h2 : j < M.r
      · rw [if_pos h1, if_pos (by omega)]; exact hM i h1 j h2 hij
      · rw [if_pos h1, if_neg (by omega)]
    · by_cases h2 : j < M.r
      · rw [if_neg h1, if_pos (by omega)]
      · rw [if_neg h1, if_neg (by omega)]
        simp only [hc]
        exact ih _ (by omega) _ (by omega) (by omega)

/-- Entries of available parts of diagonal noise. -/
theorem available_isDiag {e : Fdd × Vals} (hf : FitsV G e) (hd : e.1.noise.IsDiag e.1.noise.r) :
    (available e).1.noise.c = (available e).1.noise.r ∧ (available e).1.noise.IsDiag (available e).1.noise.r ∧
      ∀ i < (available e).1.noise.r, ∃ k < e.1.noise.r, (available e).1.noise.e i i = e.1.noise.e k k := by
  obtain ⟨xs, hx, _, s1, s2, s3⟩ := hf
  have hlt : ∀ i < (positions (e.2.map Option.isSome)).length, (positions (e.2.map Option.isSome)).getD i 0 < e.1.noise.r := by
    intro i hi
    rw [getD_lt hi, s1, ← s3]
    have := positions_lt _ (List.getElem_mem hi)
    simpa using this
  have hnd : (positions (e.2.map Option.isSome)).Nodup := by
    unfold positions
    exact List.nodup_range.filter _
  refine ⟨rfl, fun i hi j hj hij => ?_, fun i hi => ?_⟩
  · rw [← available_noise.e i hi j hj]
    refine hd _ (hlt i hi) _ (hlt j hj) fun h => hij ?_
    rw [getD_lt hi, getD_lt hj] at h
    exact (List.Nodup.getElem_inj_iff hnd).1 h
  · refine ⟨_, hlt i hi, ?_⟩
    rw [← available_noise.e i hi i hi]
    rfl

theorem Interp.Blocks.square {l : List (Fdd × List ℝ)} (h : I.Blocks m l zss) : ∀ M ∈ l.map (·.1.noise), M.c = M.r := by
  induction h with
  | nil => simp
  | cons h _ ih =>
    obtain ⟨_, h1, h2, _⟩ := h
    intro M hM
    rw [List.map_cons, List.mem_cons] at hM
    rcases hM with rfl | hM
    · exact h2.trans h1.symm
    · exact ih M hM

/-- **C41, all notations.** For VFE, and any inducing points: in any reading with nonnegative variances, whatever was asked of the object before
and however the model was extended, `m.logpdf(pseudo_obs)` is at most the log-density of the same data. Data may be missing. -/
theorem C41_notations (h : I.Reads ops) (hS : (I.S m).Pos) (ht : Tells (Dead G) D ops) (e : LogpdfU ops m .vfe us l r) (e' : Logpdf ops b m l r')
    (hl : ∀ e ∈ l, FitsV G e) (hd : ∀ e ∈ l, e.1.noise.IsDiag e.1.noise.r) (hn : ∀ f ∈ us, (f.noise.sq f.noise.r).PosSemidef)
    (bu : I.Blocks m (padded us) zssu) (bl : I.Blocks m (l.map available) zss) : r ≤ r' := by
  obtain ⟨b0, pu, p, o, hm, hb, hr⟩ := e.fresh
  obtain ⟨_, _, _, eo, hme, hz, hx, zr, zc, xr, xc, hy, hNz, hNx⟩ := hm.spec hb h ht hl bu bl
  cases eo
  have hsq : ∀ M ∈ us.map (·.noise), M.c = M.r := padded_noise us ▸ bu.square
  have hsr : (Mat.blockDiag (us.map (·.noise))).r = zssu.flatten.length := padded_noise us ▸ bu.sizes.1
  have hdx : (Mat.blockDiag ((l.map available).map (·.1.noise))).IsDiag zss.flatten.length := by
    rw [← bl.sizes.1]
    refine blockDiag_isDiag fun M hM => ?_
    rw [List.map_map] at hM
    obtain ⟨e, he, rfl⟩ := List.mem_map.1 hM
    exact ⟨(available_isDiag (hl e he) (hd e he)).1, (available_isDiag (hl e he) (hd e he)).2.1⟩
  rw [(e'.value h ht hl bl).1]
  have := C41_reading h hS hz hx zr zc xr (by
      rw [sq_congr hNz, ← hsr]
      refine blockDiag_posSemidef fun M hM => ⟨hsq M hM, ?_⟩
      obtain ⟨f, hf, rfl⟩ := List.mem_map.1 hM
      exact hn f hf) (fun i hi j hj hij => (hNx i hi j hj).trans (hdx i hi j hj hij)) hme hr
  rwa [hy, obsNormal_congr hNx] at this

/-- The inducing points are the available inputs, without noise. -/
def AtData (us : List Fdd) (l : List (Fdd × Vals)) : Prop :=
  us.map (fun f => (f.p, f.x)) = (l.map available).map (fun e => (e.1.p, e.1.x)) ∧ ∀ f ∈ us, ∀ i < f.noise.r, ∀ j < f.noise.r, f.noise.e i j = 0

/-- The noise of the data is diagonal and positive. -/
def WhiteNoise (l : List (Fdd × Vals)) : Prop :=
  ∀ e ∈ l, e.1.noise.IsDiag e.1.noise.r ∧ ∀ i < e.1.noise.r, 0 < e.1.noise.e i i

theorem blockDiag_zero : ∀ {Ms : List Mat}, (∀ M ∈ Ms, M.c = M.r ∧ ∀ i < M.r, ∀ j < M.r, M.e i j = 0) → ∀ i < (Mat.blockDiag Ms).r,
    ∀ j < (Mat.blockDiag Ms).r, (Mat.blockDiag Ms).e i j = 0
  | [], _ => fun i hi => absurd hi (Nat.not_lt_zero i)
  | M :: Ms, h => by
    have ih := blockDiag_zero (Ms := Ms) fun M hM => h M (by simp [hM])
    obtain ⟨hc, hM⟩ := h M (by simp)
    intro i hi j hj
    simp only [Mat.blockDiag, Mat.dsum] at hi hj ⊢
    by_cases h1 : i < M.r
    · by_cases h2 : j < M.r
      · rw [if_pos h1, if_pos (by omega)]; exact hM i h1 j h2
      · rw [if_pos h1, if_neg (by omega)]
    · by_cases h2 : j < M.r
      · rw [if_neg h1, if_pos (by omega)]
      · rw [if_neg h1, if_neg (by omega)]
        exact ih _ (by omega) _ (by omega)

theorem blockDiag_diag_pos : ∀ {Ms : List Mat}, (∀ M ∈ Ms, M.c = M.r ∧ ∀ i < M.r, 0 < M.e i i) → ∀ i < (Mat.blockDiag Ms).r,
    0 < (Mat.blockDiag Ms).e i i
  | [], _ => fun i hi => absurd hi (Nat.not_lt_zero i)
  | M :: Ms, h => by
    have ih := blockDiag_diag_pos (Ms := Ms) fun M hM => h M (by simp [hM])
    obtain ⟨hc, hM⟩ := h M (by simp)
    intro i hi
    simp only [Mat.blockDiag, Mat.dsum] at hi ⊢
    by_cases h1 : i < M.r
    · rw [if_pos h1, if_pos (by omega)]; exact hM i h1
    · rw [if_neg h1, if_neg (by omega), hc]
      exact ih _ (by omega)

/-- At the data, the values of the inducing points are those of the data. -/
theorem AtData.same (hA : AtData us l) (bu : I.Blocks m (padded us) zssu) (bl : I.Blocks m (l.map available) zss) : zssu = zss := by
  have h1 : ((us.map (fun f => (f.p, f.x))).mapM fun e => I.F m e.1 e.2) = some zssu := by
    rw [List.mapM_map]
    have := bu.mapM
    unfold padded at this
    rw [List.mapM_map] at this
    exact this
  have h2 : (((l.map available).map (fun e => (e.1.p, e.1.x))).mapM fun e => I.F m e.1 e.2) = some zss := by
    rw [List.mapM_map]
    exact bl.mapM
  rw [hA.1, h2] at h1
  exact (Option.some.inj h1).symm

section
variable (hA : AtData us l) (hf : WhiteNoise l) (hl : ∀ e ∈ l, FitsV G e) (bu : I.Blocks m (padded us) zssu) (bl : I.Blocks m (l.map available) zss)
include hA hf hl bu bl

theorem AtData.entries : (∀ i < zss.flatten.length, ∀ j < zss.flatten.length, (Mat.blockDiag (us.map (·.noise))).e i j = 0) ∧
    (Mat.blockDiag ((l.map available).map (·.1.noise))).IsDiag zss.flatten.length ∧
    ∀ i < zss.flatten.length, 0 < (Mat.blockDiag ((l.map available).map (·.1.noise))).e i i := by
  have hsq : ∀ M ∈ us.map (·.noise), M.c = M.r := padded_noise us ▸ bu.square
  have hsr : (Mat.blockDiag (us.map (·.noise))).r = zss.flatten.length := by
    have := padded_noise us ▸ bu.sizes.1
    rwa [hA.same bu bl] at this
  refine ⟨?_, ?_, ?_⟩
  · rw [← hsr]
    refine blockDiag_zero fun M hM => ⟨hsq M hM, ?_⟩
    obtain ⟨f, hf, rfl⟩ := List.mem_map.1 hM
    exact hA.2 f hf
  · rw [← bl.sizes.1]
    refine blockDiag_isDiag fun M hM => ?_
    rw [List.map_map] at hM
    obtain ⟨e, he, rfl⟩ := List.mem_map.1 hM
    exact ⟨(available_isDiag (hl e he) (hf e he).1).1, (available_isDiag (hl e he) (hf e he).1).2.1⟩
  · rw [← bl.sizes.1]
    refine blockDiag_diag_pos fun M hM => ?_
    rw [List.map_map] at hM
    obtain ⟨e, he, rfl⟩ := List.mem_map.1 hM
    obtain ⟨h1, _, h2⟩ := available_isDiag (hl e he) (hf e he).1
    refine ⟨h1, fun i hi => ?_⟩
    obtain ⟨k, hk, e⟩ := h2 i hi
    show 0 < (available _).1.noise.e i i
    rw [e]; exact (hf _ he).2 k hk

/-- **C40, ELBO, all notations.** -/
theorem C40_elbo_notations (h : I.Reads ops) (ht : Tells (Dead G) D ops) (e : LogpdfU ops m μ us l r) (e' : Logpdf ops b m l r') : r = r' := by
  obtain ⟨b0, pu, p, o, hm, hb, hr⟩ := e.fresh
  obtain ⟨_, _, _, eo, hme, hz, hx, zr, zc, xr, xc, hy, hNz, hNx⟩ := hm.spec hb h ht hl bu bl
  cases eo
  obtain ⟨k0, k1, k2⟩ := hA.entries hf hl bu bl
  obtain rfl := hA.same bu bl
  rw [(e'.value h ht hl bl).1]
  have := C40_elbo_reading h hz hx zr zc xr (fun i hi j hj => (hNz i hi j hj).trans (k0 i hi j hj))
    (fun i hi j hj hij => (hNx i hi j hj).trans (k1 i hi j hj hij)) (fun j hj => by rw [hNx j hj j hj]; exact k2 j hj) hr
  rwa [hy, obsNormal_congr hNx] at this

/-- **C40, all notations.** -/
theorem C40_notations (h : I.Reads ops) (hF : I.Firm ops) (ht : Tells (Dead G) D ops) (c1 : ConditionedU ops b m μ us l m1)
    (c2 : Conditioned ops b' m l m2) : I.S m1 = I.S m2 := by
  obtain ⟨hm, hc, hp, hh, h1⟩ := c1
  cases hc
  obtain ⟨pu, p, o, rfl, hme, hz, hx, zr, zc, xr, xc, hy, hNz, hNx⟩ := hm.spec ((List.prefix_append _ _).trans hp) h ht hl bu bl
  have g1 : Gives ops b m (.pseudo pu p o) m1 := by
    refine ⟨?_, hh, ?_⟩
    · obtain ⟨t, rfl⟩ := hp
      exact ⟨t, by simp⟩
    · rw [condition_length hh] at h1; omega
  obtain ⟨bq, o2, _, g2, hO, _⟩ := c2.gives ht hl
  obtain ⟨k0, k1, k2⟩ := hA.entries hf hl bu bl
  obtain rfl := hA.same bu bl
  obtain ⟨hu2, hp2⟩ := g2.blocks_any h hF hO bl fun e he => by
    obtain ⟨e', he', rfl⟩ := List.mem_map.1 he
    exact (hl e' he').fits
  obtain ⟨zs', xs', hz', hx', hu⟩ := (g1.law h).2
  rw [hz] at hz'; cases hz'
  rw [hx] at hx'; cases hx'
  obtain ⟨hp1, hyl⟩ := g1.firm hF _ _ hz hx
  rw [← hy] at hu2
  have hN' := fun i hi j hj => (hNx i hi j hj).symm
  refine sparse_exact hu (hu2.congr xr xc hN') hp1 ?_ hyl (fun i hi j hj => (hNz i hi j hj).trans (k0 i hi j hj))
    (fun i hi j hj hij => (hNx i hi j hj).trans (k1 i hi j hj hij)) fun j hj => by rw [hNx j hj j hj]; exact k2 j hj
  rw [noisyGram_congr hNx]; exact hp2

end

end

/-! ## Programs in which all calls return -/

section
variable {G : Dom} {D : PId → ℕ} {ops b b' : List Op} {m m1 m2 : MId} {μ : Method} {us : List Fdd} {l : List (Fdd × Vals)} {r r' : ℝ}

theorem Made.blocks {o : Obs} (h : Regular G ops) (hm : Made b m μ us l o) (hb : b <+: ops) (hu : ∀ f ∈ us, FitsF G f) (hl : ∀ e ∈ l, FitsV G e) :
    (∃ zssu, (reading ops).Blocks m (padded us) zssu) ∧ ∃ zss, (reading ops).Blocks m (l.map available) zss := by
  obtain ⟨_, _, _, hb0, au, al⟩ := hm
  have hb1 := (List.prefix_append _ _).trans (hb0.trans hb)
  constructor
  · refine h.blocks (fun e he => ?_) fun e he => ?_
    · obtain ⟨f, hf, rfl⟩ := List.mem_map.1 he
      obtain ⟨xs, h1, h2, h3, h4⟩ := hu f hf
      exact ⟨xs, h1, h2, h3, h4, by simpa using h3⟩
    · obtain ⟨f, hf, rfl⟩ := List.mem_map.1 he
      exact attached_pre (au f hf) hb1
  · refine h.blocks (fun e he => ?_) fun e he => ?_
    · obtain ⟨e', he', rfl⟩ := List.mem_map.1 he
      exact (hl e' he').fits
    · obtain ⟨e', he', rfl⟩ := List.mem_map.1 he
      exact attached_pre (al e' he') hb1

/-- **C41.** In regular programs: for VFE and any inducing points, `m.logpdf(pseudo_obs)` is at most
`m.logpdf` of the same data, whatever the notations, whatever was asked of the object before, and however the model was extended. -/
theorem C41_regular (h : Regular G ops) (ht : Tells (Dead G) D ops) (e : LogpdfU ops m .vfe us l r) (e' : Logpdf ops b m l r') (hu : ∀ f ∈ us, FitsF G f ∧ (f.noise.sq f.noise.r).PosSemidef)
    (hl : ∀ e ∈ l, FitsV G e ∧ e.1.noise.IsDiag e.1.noise.r) : r ≤ r' := by
  obtain ⟨b0, pu, p, o, hm, hb, _⟩ := e.fresh
  obtain ⟨⟨zssu, bu⟩, zss, bl⟩ := hm.blocks h hb (fun f hf => (hu f hf).1) fun e he => (hl e he).1
  exact C41_notations h.reads (h.pos m) ht e e' (fun e he => (hl e he).1) (fun e he => (hl e he).2)
    (fun f hf => (hu f hf).2) bu bl

/-- **C40, ELBO.** In regular programs: with inducing points at the data, for VFE, FITC and DTC, `m.logpdf(pseudo_obs)` is `m.logpdf` of the
same data. -/
theorem C40_elbo_regular (h : Regular G ops) (ht : Tells (Dead G) D ops) (e : LogpdfU ops m μ us l r) (e' : Logpdf ops b m l r')
    (hA : AtData us l) (hf : WhiteNoise l) (hu : ∀ f ∈ us, FitsF G f) (hl : ∀ e ∈ l, FitsV G e) : r = r' := by
  obtain ⟨b0, pu, p, o, hm, hb, _⟩ := e.fresh
  obtain ⟨⟨zssu, bu⟩, zss, bl⟩ := hm.blocks h hb hu hl
  exact C40_elbo_notations hA hf hl bu bl h.reads ht e e'

/-- **C40.** In regular programs: with inducing points at the data, for VFE, FITC and DTC, the means and kernels of the measure conditioned on the
pseudo-observations return the same as those of the measure conditioned on the data, for all processes at all inputs. -/
theorem C40_regular (h : Regular G ops) (ht : Tells (Dead G) D ops) (c1 : ConditionedU ops b m μ us l m1) (c2 : Conditioned ops b' m l m2)
    (hA : AtData us l) (hf : WhiteNoise l) (hu : ∀ f ∈ us, FitsF G f) (hl : ∀ e ∈ l, FitsV G e) {q q' : PId}
    (hq : Attached (runOps b {}) m q) (kq : Attached (runOps b' {}) m q)
    (hq' : Attached (runOps b {}) m q') (kq' : Attached (runOps b' {}) m q') {xs ys : List Pt} (cq : Rows (G q) xs) (cq' : Rows (G q') ys) :
    (∀ v, MeanCall (runOps ops {}) m1 q (.num xs) v ↔ MeanCall (runOps ops {}) m2 q (.num xs) v) ∧
    ∃ A A', KernelCall (runOps ops {}) m1 q q' (.num xs) (.num ys) A ∧ KernelCall (runOps ops {}) m2 q q' (.num xs) (.num ys) A' ∧
      A.Eqv A' := by
  obtain ⟨bq, o2, hpre, g2, _, _⟩ := c2.gives ht hl
  have c1' := c1
  obtain @⟨_, _, _, o1, hm, hc, hp, hh, h1⟩ := c1'
  cases hc
  have g1 : Gives ops b m o1 m1 := by
    refine ⟨?_, hh, ?_⟩
    · obtain ⟨t, rfl⟩ := hp
      exact ⟨t, by simp⟩
    · rw [condition_length hh] at h1; omega
  obtain ⟨⟨zssu, bu⟩, zss, bl⟩ := hm.blocks h ((List.prefix_append _ _).trans hp) hu hl
  refine h.same (b := b) (b' := b') (m := m) (C40_notations hA hf hl bu bl h.reads h.firm ht c1 c2) (fun q hq kq => ?_) hq kq hq' kq' cq cq'
  exact ⟨g1.attached hq, g2.attached (attached_pre kq hpre), by
    rw [(g1.law h.reads).1 q hq, (g2.law h.reads).1 q (attached_pre kq hpre)]⟩

/-- **C41, the ELBO exists.** In regular programs: if the kernel matrix of the inducing points, with
their noise, is positive definite, the noise of the data is diagonal and positive, and all sizes are right, then the ELBO is computed. -/
theorem C41_total (h : Regular G ops) {pu p : PId}
    (hu : Attached (runOps ops {}) m pu) (hp : Attached (runOps ops {}) m p) {o : PseudoData} {zs xs : List Pt}
    (cu : Rows (G pu) zs) (cp : Rows (G p) xs)
    (ez : o.z = .num zs) (ex : o.x = .num xs) (fit : o.Fit) (hd : o.noiseX.isDiagonal = true) (hz : (o.noiseZ.sq zs.length).PosSemidef)
    (hx : ∀ j < xs.length, 0 < o.noiseX.mat.e j j)
    (hK : ∀ A K, KernelCall (runOps ops {}) m pu pu (.num zs) (.num zs) A → A.add o.noiseZ = some K → (K.sq K.r).PosDef) :
    ∃ r, (getElbo (runOps ops {}) pu p o m {}).2 = some r := by
  obtain ⟨us, hF, lF⟩ := h.value hu cu
  obtain ⟨vs, hG, lG⟩ := h.value hp cp
  obtain ⟨A, hA, rA, cA⟩ := h.kernel hu hu cu cu
  obtain ⟨Z, hZ, rZ, cZ⟩ := h.kernel hu hp cu cp
  obtain ⟨u, hu', lu⟩ := h.elwise hp hp cp cp rfl
  obtain ⟨mx, hmx, lmx⟩ := h.mean hp cp
  obtain ⟨mz, hmz, lmz⟩ := h.mean hu cu
  obtain ⟨zr, zc, xr, xc, ly⟩ := fit
  rw [ez] at zr zc
  rw [ex] at xr xc ly
  change _ = zs.length at zr zc
  change _ = xs.length at xr xc ly
  have eA := h.kernel_eq hu hu cu cu hA hF hF
  have eZ := h.kernel_eq hu hp cu cp hZ hF hG
  have eu := h.elwise_eq hp hp cp cp rfl hu' hG hG
  have hadd : A.add o.noiseZ = some ⟨A.r, A.c, fun i j => A.e i j + o.noiseZ.e i j⟩ := if_pos ⟨rA.trans zr.symm, cA.trans zc.symm⟩
  have hPD := hK A _ hA hadd
  have hP : partK (runOps ops {}) pu p o m = some (Z, ⟨A.r, A.c, fun i j => A.e i j + o.noiseZ.e i j⟩) := by
    unfold partK
    rw [ez, ex, callK_iff.2 hZ, callK_iff.2 hA]
    simp only [bind, Option.bind_some, hadd]
  have hS := h.pos m
  have hpos : ∀ j, 0 < knDiag o.method (Mat.sq ⟨A.r, A.c, fun i j => A.e i j + o.noiseZ.e i j⟩ A.r) (Z.rect A.r) (fun j => u.getD j 0)
      (fun j => o.noiseX.mat.e j j) j := by
    refine knDiag_pos (S := (reading ops).S m) (zs := us) (xs := vs) (K := ⟨A.r, A.c, fun i j => A.e i j + o.noiseZ.e i j⟩) hS (zr.trans lF.symm)
      (zc.trans lF.symm) (lF ▸ hz) (lG ▸ hx) (rA.trans lF.symm) (cZ.trans lG.symm) ?_ ?_ ?_ hPD
    · ext i j
      show A.e i j + _ = ((reading ops).S m).C (us.get i) (us.get j) + _
      rw [eA.e i i.2 j j.2]
      show ((reading ops).S m).C (us.getD i 0) (us.getD j 0) + _ = _
      rw [getD_get i.2, getD_get j.2]
      rfl
    · intro i j
      rw [eZ.e i i.2 j j.2]
      show ((reading ops).S m).C (us.getD i 0) (vs.getD j 0) = _
      rw [getD_get i.2, getD_get j.2]
      rfl
    · intro j
      rw [eu, List.getD_eq_getElem?_getD, List.getElem?_eq_getElem (by simp)]
      simp
  have hkx : ∃ kx, kxDiag (runOps ops {}) p o m Z.c = some kx ∧
      ∀ j, 0 < knDiag o.method (Mat.sq ⟨A.r, A.c, fun i j => A.e i j + o.noiseZ.e i j⟩ A.r) (Z.rect A.r) kx (fun j => o.noiseX.mat.e j j) j := by
    unfold kxDiag
    cases hm : o.method with
    | dtc =>
      refine ⟨0, rfl, fun j => ?_⟩
      rw [knDiag_dtc _ _ _ fun j => u.getD j 0, ← hm]
      exact hpos j
    | vfe =>
      simp only
      rw [ex, callD_iff.2 hu']
      simp only [bind, Option.bind_some]
      rw [if_pos (lu.trans cZ.symm)]
      exact ⟨_, rfl, hm ▸ hpos⟩
    | fitc =>
      simp only
      rw [ex, callD_iff.2 hu']
      simp only [bind, Option.bind_some]
      rw [if_pos (lu.trans cZ.symm)]
      exact ⟨_, rfl, hm ▸ hpos⟩
  obtain ⟨kx, hkx, hpos⟩ := hkx
  rw [(RightP.empty _ _ _ _).get_elbo]
  unfold partY partG
  rw [hP]
  simp only [bind, Option.bind_some]
  rw [if_pos ⟨hd, ⟨rA.trans cA.symm, hPD⟩, rZ.trans rA.symm, xr.trans cZ.symm, xc.trans cZ.symm⟩, hkx]
  simp only [Option.bind_some]
  rw [if_pos hpos]
  simp only [Option.bind_some]
  rw [ex, callM_iff.2 hmx]
  simp only [Option.bind_some]
  rw [if_pos ⟨lmx.trans cZ.symm, ly.trans cZ.symm⟩, ez, callM_iff.2 hmz]
  simp only [Option.bind_some]
  rw [if_pos (lmz.trans rA.symm)]
  exact ⟨_, rfl⟩

end

/-! ## Examples -/

/-- Inducing points at the available data of `gappy`, without noise. -/
noncomputable def onto : Fdd := ⟨0, .num [[0], [2]], none2⟩

/-- One inducing point elsewhere, without noise. -/
noncomputable def coarse : Fdd := ⟨0, .num [[1]], ⟨1, 1, fun _ _ => 0⟩⟩

/-- What an object for `gappy` with these inducing points consists of. -/
noncomputable def sketch (μ : Method) (u : Fdd) : PseudoData := ⟨μ, u.x, u.noise, .num [[0], [2]], ⟨rows (eye 3) [0, 2], true⟩, [1, 3]⟩

/-- A GP, conditioned on `gappy` through inducing points, and conditioned on `gappy`; and what `m.logpdf` does to the graph. -/
noncomputable def brief (μ : Method) : List Op :=
  [.gp .zero affine none none,
   .condition 0 (.pseudo 0 0 (sketch μ onto)),
   .condition 0 (.exact 0 (.num [[0], [2]]) (rows (eye 3) [0, 2]) [1, 3]),
   .call 0 0]

theorem rows_one : (rows (eye 3) [0, 2]).sq 2 = 1 := by
  ext i j
  show (rows (eye 3) [0, 2]).e i j = _
  rw [one_apply]
  fin_cases i <;> fin_cases j <;> simp [rows, eye]

theorem brief_noisy (μ : Method) : Noisy (brief μ) := by
  intro m obs h
  simp only [brief, List.mem_cons, List.not_mem_nil, or_false, reduceCtorEq, false_or, or_false,
    Op.condition.injEq] at h
  rcases h with ⟨_, rfl⟩ | ⟨_, rfl⟩
  · refine ⟨?_, fun j hj => ?_⟩
    · have : none2.sq 2 = 0 := rfl
      show (none2.sq 2).PosSemidef
      rw [this]; exact .zero
    · have hj : j < 2 := hj
      show 0 < (rows (eye 3) [0, 2]).e j j
      interval_cases j <;> simp [rows, eye]
  · show (Mat.sq _ 2).PosDef
    exact rows_one ▸ .one

theorem onto_posDef {ops : List Op} (hk : kernelAt (runOps ops {}) 0 0 0 = some affine) : ∀ A K,
    KernelCall (runOps ops {}) 0 0 0 (.num [[0], [2]]) (.num [[0], [2]]) A → A.add none2 = some K → (K.sq K.r).PosDef := by
  intro A K hA hK
  have h' : KernelCall (runOps ops {}) 0 0 0 (.num [[0], [2]]) (.num [[0], [2]])
      ⟨2, 2, fun i j => affine.val (([[0], [2]] : List Pt).getD i []) (([[0], [2]] : List Pt).getD j [])⟩ := ⟨affine, 1, hk, rfl⟩
  rw [hA.unique h'] at hK
  cases hK
  show Matrix.PosDef (n := Fin 2) _
  refine PosDef.of_dotProduct_mulVec_pos ?_ fun v hv => ?_
  · ext i j
    fin_cases i <;> fin_cases j <;> simp [Mat.sq, none2, affine, KExpr.val]
  · have : v 0 ≠ 0 ∨ v 1 ≠ 0 := by
      by_contra hc
      push Not at hc
      exact hv (by ext i; fin_cases i <;> simp [hc])
    have hq : star v ⬝ᵥ (Mat.sq ⟨2, 2, fun i j => affine.val (([[0], [2]] : List Pt).getD i []) (([[0], [2]] : List Pt).getD j []) +
        none2.e i j⟩ 2 *ᵥ v) = (v 0 + v 1) ^ 2 + (2 * v 1) ^ 2 := by
      simp [dotProduct, mulVec, Fin.sum_univ_two, Mat.sq, none2, affine, KExpr.val]
      ring
    refine lt_of_lt_of_eq ?_ hq.symm
    rcases this with h | h
    · by_cases h1 : v 1 = 0
      · rw [h1, add_zero]; positivity
      · positivity
    · positivity

theorem coarse_posDef {ops : List Op} (hk : kernelAt (runOps ops {}) 0 0 0 = some affine) : ∀ A K,
    KernelCall (runOps ops {}) 0 0 0 (.num [[1]]) (.num [[1]]) A → A.add coarse.noise = some K → (K.sq K.r).PosDef := by
  intro A K hA hK
  have h' : KernelCall (runOps ops {}) 0 0 0 (.num [[1]]) (.num [[1]])
      ⟨1, 1, fun i j => affine.val (([[1]] : List Pt).getD i []) (([[1]] : List Pt).getD j [])⟩ := ⟨affine, 1, hk, rfl⟩
  rw [hA.unique h'] at hK
  cases hK
  have : Mat.sq ⟨1, 1, fun i j => affine.val (([[1]] : List Pt).getD i []) (([[1]] : List Pt).getD j []) + coarse.noise.e i j⟩ 1 =
      diagonal fun _ => 2 := by
    ext i j
    fin_cases i; fin_cases j
    simp [Mat.sq, affine, KExpr.val, coarse]
    norm_num
  show (Mat.sq ⟨1, 1, fun i j => affine.val (([[1]] : List Pt).getD i []) (([[1]] : List Pt).getD j []) + coarse.noise.e i j⟩ 1).PosDef
  rw [this]
  exact PosDef.diagonal fun _ => by norm_num

theorem brief_regular (μ : Method) : Regular (off fun _ => False) (brief μ) := by
  refine .of_noisy_off ⟨?_, ?_, ?_, fun m obs h => (brief_noisy μ m obs h).psd, smooth_of (by simp [brief])⟩ (brief_noisy μ) ?_
  · have hs := affine_psd
    intro o ho
    simp only [brief, List.mem_cons, List.not_mem_nil, or_false] at ho
    rcases ho with rfl | rfl | rfl | rfl
    all_goals first
      | exact ⟨trivial, trivial, hs⟩
      | trivial
  · refine splits (ops := brief μ) (P := fun before o => ∀ m, ∀ e ∈ o.written (runOps before {}).gps.length m,
      ¬ False → e.2.TotalOff fun _ => False) ⟨?_, ?_, ?_, ?_, trivial⟩
    all_goals
      intro m e he
      first
        | exact (List.not_mem_nil he).elim
        | have he := List.mem_singleton.1 he
          subst he
          first
            | exact fun _ => ⟨trivial, trivial⟩
            | exact fun _ => not_false
  · intro before m obs after e hm
    refine splits (ops := brief μ) (P := fun before o => ∀ m obs, o = .condition m obs → ObsFitsOff (fun _ => False) before m obs) ⟨?_, ?_, ?_, ?_, trivial⟩
      before _ after e m obs rfl
    all_goals
      intro m obs e
      first
        | (exfalso; cases e; done)
        | cases e
    · exact ⟨rfl, ⟨rfl, rfl, rfl, rfl, rfl⟩, .inl ⟨⟨_, rfl⟩, attached_iff.2 rfl, not_false⟩, .inl ⟨⟨_, rfl⟩, attached_iff.2 rfl, not_false⟩⟩
    · exact ⟨rfl, rfl, rfl, .inl ⟨⟨_, rfl⟩, attached_iff.2 rfl, not_false⟩⟩
  · intro before m pu p o after e hm
    have hmem : Op.condition m (.pseudo pu p o) ∈ brief μ := by rw [e]; simp
    simp only [brief, List.mem_cons, List.not_mem_nil, or_false, reduceCtorEq, false_or, and_false,
      Op.condition.injEq, Obs.pseudo.injEq] at hmem
    obtain ⟨rfl, rfl, rfl, rfl⟩ := hmem
    exact onto_posDef rfl

theorem brief_tells (μ : Method) : Tells (Dead (off fun _ => False)) (fun _ => 1) (brief μ) := by
  rw [dead_off]
  refine splits (ops := brief μ) (P := fun before o => ∀ m, ∀ e ∈ o.written (runOps before {}).gps.length m,
      Sorted (fun _ => False) e ∧ Counts (fun _ => 1) e) ⟨?_, ?_, ?_, ?_, trivial⟩
  all_goals
    intro m e he
    first
      | exact (List.not_mem_nil he).elim
      | have he := List.mem_singleton.1 he
        subst he
        first
          | exact ⟨⟨fun _ => ⟨trivial, trivial⟩, fun h => h.elim⟩, trivial⟩
          | exact ⟨⟨fun _ => not_false, fun h => h.elim⟩, rfl⟩

/-- `PseudoObs(u, fdd, y)` with a missing value, for any method. -/
theorem brief_made (μ : Method) (u : Fdd) (hu : u.p = 0) : Made (Event.ops ((brief μ).map .op)) 0 μ [u] [gappy] (.pseudo u.p 0 (sketch μ u)) :=
  .mk (b0 := (brief μ).take 1) (n := 3) (ord := []) (ord' := []) (diag := true) (.one u) (.plain gappy.1 gappy.2) rfl ⟨(brief μ).drop 1, rfl⟩
    (fun f hf => by cases List.mem_singleton.1 hf; rw [hu]; exact attached_iff.2 rfl)
    (fun e he => by cases List.mem_singleton.1 he; exact attached_iff.2 rfl)

theorem gappy_white : WhiteNoise [gappy] := by
  intro e he
  cases List.mem_singleton.1 he
  refine ⟨fun i hi j hj hij => ?_, fun i hi => ?_⟩
  · exact if_neg hij
  · show 0 < (eye 3).e i i
    simp [eye]

theorem gappy_fits : ∀ e ∈ [gappy], FitsV (off fun _ => False) e := fun e he => by
  cases List.mem_singleton.1 he; exact ⟨_, rfl, rows_off not_false, rfl, rfl, rfl⟩

theorem onto_atData : AtData [onto] [gappy] :=
  ⟨rfl, fun f hf i _ j _ => by cases List.mem_singleton.1 hf; rfl⟩

/-- C40 for `brief`: whatever the method, the posterior through inducing points is the posterior. -/
example (μ : Method) (xs ys : List Pt) :
    (∀ v, MeanCall (runOps (brief μ) {}) 1 0 (.num xs) v ↔ MeanCall (runOps (brief μ) {}) 2 0 (.num xs) v) ∧
    ∃ A A', KernelCall (runOps (brief μ) {}) 1 0 0 (.num xs) (.num ys) A ∧ KernelCall (runOps (brief μ) {}) 2 0 0 (.num xs) (.num ys) A' ∧
      A.Eqv A' := by
  refine C40_regular (b := (brief μ).take 1) (b' := (brief μ).take 2) (m := 0) (us := [onto]) (l := [gappy]) (brief_regular μ) (brief_tells μ)
    (.mk (n := 3) (ord := []) (.mk (b0 := (brief μ).take 1) (n := 3) (ord := []) (ord' := []) (diag := true) (.one onto) (.plain gappy.1 gappy.2) rfl
      ⟨[], rfl⟩ (fun f hf => by cases List.mem_singleton.1 hf; exact attached_iff.2 rfl)
      (fun e he => by cases List.mem_singleton.1 he; exact attached_iff.2 rfl)) rfl ⟨(brief μ).drop 2, rfl⟩ (by decide : 0 < 1) rfl)
    (.direct (n := 3) (ord := []) (.plain gappy.1 gappy.2) (.inl rfl) rfl ⟨(brief μ).drop 3, rfl⟩ (by decide : 0 < 2) rfl
      (fun e he => by cases List.mem_singleton.1 he; exact attached_iff.2 rfl))
    onto_atData gappy_white (fun f hf => by cases List.mem_singleton.1 hf; exact ⟨_, rfl, rows_off not_false, rfl, rfl⟩) gappy_fits
    (attached_iff.2 rfl) (attached_iff.2 rfl) (attached_iff.2 rfl) (attached_iff.2 rfl) (rows_off not_false) (rows_off not_false)

theorem brief_logpdf (μ : Method) : ∃ r, Logpdf (brief μ) ((brief μ).take 3) 0 [gappy] r :=
  logpdf_plain (ord := []) (m := 0) (brief_regular μ) (gappy_fits _ (by simp))
    (eye_posDef 3 3) rfl ⟨[], rfl⟩

theorem brief_elbo (μ : Method) (u : Fdd) {zs : List Pt} (hu : u.p = 0) (hx : u.x = .num zs) (hr : u.noise.r = zs.length) (hc : u.noise.c = zs.length)
    (hz : (u.noise.sq zs.length).PosSemidef) (hK : ∀ A K, KernelCall (runOps (brief μ) {}) 0 0 0 (.num zs) (.num zs) A →
      A.add u.noise = some K → (K.sq K.r).PosDef) : ∃ r, LogpdfU (brief μ) 0 μ [u] [gappy] r := by
  obtain ⟨r, hr⟩ := C41_total (m := 0) (pu := u.p) (p := 0) (o := sketch μ u) (brief_regular μ)
    (by rw [hu]; exact attached_iff.2 rfl) (attached_iff.2 rfl) (rows_off not_false) (rows_off not_false) hx rfl
    ⟨by show u.noise.r = numElements u.x; rw [hx]; exact hr, by show u.noise.c = numElements u.x; rw [hx]; exact hc, rfl, rfl, rfl⟩ rfl hz
    (fun j hj => by
      have hj : j < 2 := hj
      show 0 < (rows (eye 3) [0, 2]).e j j
      interval_cases j <;> simp [rows, eye]) (by rw [hu]; exact hK)
  refine ⟨r, .mk (es := (brief μ).map .op) (brief_made μ u hu) ⟨[], rfl⟩ ?_⟩
  dsimp only [logpdfPseudo]
  rw [C42_elbo]
  exact hr

/-- C40 for `brief`: whatever the method, the ELBO with inducing points at the data is the log-density. -/
example (μ : Method) : ∃ r r', LogpdfU (brief μ) 0 μ [onto] [gappy] r ∧ Logpdf (brief μ) ((brief μ).take 3) 0 [gappy] r' ∧ r = r' := by
  obtain ⟨r', h'⟩ := brief_logpdf μ
  obtain ⟨r, h⟩ := brief_elbo μ onto rfl rfl rfl rfl (by
    have : none2.sq 2 = 0 := rfl
    show (none2.sq 2).PosSemidef
    rw [this]; exact .zero) (onto_posDef rfl)
  exact ⟨r, r', h, h', C40_elbo_regular (brief_regular μ) (brief_tells μ) h h' onto_atData gappy_white
    (fun f hf => by cases List.mem_singleton.1 hf; exact ⟨_, rfl, rows_off not_false, rfl, rfl⟩) gappy_fits⟩

/-- C41 for `brief`: with one inducing point, the ELBO is at most the log-density. -/
example : ∃ r r', LogpdfU (brief .vfe) 0 .vfe [coarse] [gappy] r ∧ Logpdf (brief .vfe) ((brief .vfe).take 3) 0 [gappy] r' ∧ r ≤ r' := by
  obtain ⟨r', h'⟩ := brief_logpdf .vfe
  have hz : (coarse.noise.sq 1).PosSemidef := by
    have : coarse.noise.sq 1 = 0 := rfl
    rw [this]; exact .zero
  obtain ⟨r, h⟩ := brief_elbo .vfe coarse rfl rfl rfl rfl hz (coarse_posDef rfl)
  exact ⟨r, r', h, h', C41_regular (brief_regular _) (brief_tells _) h h'
    (fun f hf => by cases List.mem_singleton.1 hf; exact ⟨⟨_, rfl, rows_off not_false, rfl, rfl⟩, hz⟩)
    (fun e he => ⟨gappy_fits e he, (gappy_white e he).1⟩)⟩

end Stheno
