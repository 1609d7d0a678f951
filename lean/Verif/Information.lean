import Verif.Props.Sparse
import Verif.Props.MorePoints
import Verif.Props.JitterSparse
import Verif.Apart
import Mathlib.InformationTheory.KullbackLeibler.DataProcessing

/-!
# Entropies, divergences and distances of finite-dimensional distributions
-/

namespace Stheno

open Matrix MeasureTheory

/-! ## Model -/

/-- A normal of dimension `n` with the given mean and variance. -/
def normalOf (n : ℕ) (v : List ℝ) (W : Mat) : Normal n := ⟨fun i => v.getD i 0, fun i j => W.e i j⟩

/-- `fdd.entropy()` (`stheno/random.py:282-291`) returns `r`. The determinant is computed from a Cholesky factor of the variance, which must hence
be positive definite (contract of `lab`). -/
structure FddEntropy (w : World) (f : Fdd) (r : ℝ) : Prop where
  ret : ∃ n v W, FddNormal w f v W ∧ W.r = n ∧ W.c = n ∧ v.length = n ∧ (W.sq n).PosDef ∧ r = (normalOf n v W).entropy

/-- `fdd1.kl(fdd2)` (`stheno/random.py:293-310`) returns `r`. -/
structure FddKl (w : World) (f f' : Fdd) (r : ℝ) : Prop where
  ret : ∃ n v W v' W', FddNormal w f v W ∧ FddNormal w f' v' W' ∧ W.r = n ∧ W.c = n ∧ v.length = n ∧ W'.r = n ∧ W'.c = n ∧ v'.length = n ∧
    (W.sq n).PosDef ∧ (W'.sq n).PosDef ∧ r = (normalOf n v W).kl (normalOf n v' W')

/-- `fdd1.w2(fdd2)` (`stheno/random.py:312-329`) returns `r`. Only positive definite variances are considered. -/
structure FddW2 (w : World) (f f' : Fdd) (r : ℝ) : Prop where
  ret : ∃ n v W v' W', FddNormal w f v W ∧ FddNormal w f' v' W' ∧ W.r = n ∧ W.c = n ∧ v.length = n ∧ W'.r = n ∧ W'.c = n ∧ v'.length = n ∧
    (W.sq n).PosDef ∧ (W'.sq n).PosDef ∧ r = (normalOf n v W).w2 (normalOf n v' W')

/-- In the program `c`, the FDD `f` was made as `m(fdd)` (`stheno/model/measure.py:152-154`), or as `m(combine(fdd1, ...))`
(`stheno/model/observations.py:28-39`), of the FDDs `fs`. -/
inductive JointFdd (c : List Op) (m : MId) : List Fdd → Fdd → Prop
  | one {b : List Op} {f0 f : Fdd} {o : Op} (hc : callFdd (runOps b {}) m f0 = some (o, f)) (hp : b ++ [o] <+: c) : JointFdd c m [f0] f
  | many {b : List Op} {ord : List MId} {fs : List Fdd} {f0 f : Fdd} {o o' : Op} (hc : combine (runOps b {}) ord fs = some (o, f0))
      (hc' : callFdd (runOps (b ++ [o]) {}) m f0 = some (o', f)) (hp : b ++ [o] ++ [o'] <+: c) : JointFdd c m fs f

/-- At some point of the program, the entropy of the FDDs `fs` under measure `m` is computed, which is `r`. -/
def EntropyOf (ops : List Op) (m : MId) (fs : List Fdd) (r : ℝ) : Prop := ∃ c f, c <+: ops ∧ JointFdd c m fs f ∧ FddEntropy (runOps c {}) f r

/-- At some point of the program, the divergence between the FDDs `fs` under measure `m` and under measure `m'` is computed, which is `r`. -/
def KlOf (ops : List Op) (m m' : MId) (fs : List Fdd) (r : ℝ) : Prop :=
  ∃ c f f', c <+: ops ∧ JointFdd c m fs f ∧ JointFdd c m' fs f' ∧ FddKl (runOps c {}) f f' r

/-- At some point of the program, the distance between the FDDs `fs` under measure `m` and under measure `m'` is computed, which is `r`. -/
def W2Of (ops : List Op) (m m' : MId) (fs : List Fdd) (r : ℝ) : Prop :=
  ∃ c f f', c <+: ops ∧ JointFdd c m fs f ∧ JointFdd c m' fs f' ∧ FddW2 (runOps c {}) f f' r

/-! ## What the moments are -/

/-- The measure that a process was made with stays the same. -/
theorem gpMeasure_pre {b c : List Op} (hb : b <+: c) {p : PId} {m : MId} (h : gpMeasure (runOps b {}) p = some m) : gpMeasure (runOps c {}) p = some m := by
  obtain ⟨t, rfl⟩ := hb
  have iv := Inv.reach b
  have iv' := Inv.reach (b ++ t)
  have hx : Ext (specOps b {}) (specOps (b ++ t) {}) := by
    rw [specOps_append]
    exact (iv.runOps t).2
  unfold gpMeasure groups at h ⊢
  rw [iv'.rel.gps]
  rw [iv.rel.gps] at h
  cases hg : (specOps b {}).gps[p]? with
  | none => rw [hg] at h; cases h
  | some g =>
    rw [hg] at h
    obtain ⟨l', e⟩ := hx.gps p g hg
    rw [e]
    cases g with
    | nil => cases h
    | cons a g => exact h

/-- The mean and variance of `measure(fdd)`, whenever they are computed, are those of the process of the FDD in the measure. -/
theorem callFdd_later {b c ops : List Op} {m : MId} {f f' : Fdd} {o : Op} (h : callFdd (runOps b {}) m f = some (o, f')) (hb : b ++ [o] <+: c) (hc : c <+: ops) {v : List ℝ} {V : Mat}
    (hn : FddNormal (runOps c {}) f' v V) : ∃ K, MeanCall (runOps ops {}) m f.p f.x v ∧
      KernelCall (runOps ops {}) m f.p f.p f.x f.x K ∧ K.add f.noise = some V := by
  obtain ⟨rfl, rfl, h1, h2, h3⟩ := callFdd_parts h
  obtain ⟨m', K, hm, hv, hK, hV⟩ := hn
  simp only at hm hv hK hV
  rw [gpMeasure_pre hb h3] at hm
  cases hm
  obtain ⟨t, rfl⟩ := hc
  obtain ⟨t', ht⟩ := hb
  obtain ⟨e1, e2, _⟩ := C33_table (ops := c) (before := b) (p := f.p) (r := (runOps b {}).gps.length) ⟨⟨t', by rw [← ht]; simp⟩, rfl, m, h2⟩ h2 (mem_members.2 h1)
  refine ⟨K, C05_mean_call ?_, C05_kernel_call ?_, hV⟩
  · obtain ⟨a, n, ha, hv⟩ := hv
    exact ⟨a, n, e1 ▸ ha, hv⟩
  · obtain ⟨k, n, hk, hK⟩ := hK
    exact ⟨k, n, e2 ▸ hk, hK⟩

section
variable {V : Type} [AddCommGroup V] [Module ℝ V] {I : Interp V} {ops c : List Op} {m : MId} {fs : List Fdd} {f : Fdd} {v : List ℝ} {W : Mat}
  {zss : List (List V)}

/-- The FDDs are of processes of the measure. -/
theorem JointFdd.attached (e : JointFdd c m fs f) (hc : c <+: ops) (h : I.Reads ops) : ∀ f ∈ fs, Attached (runOps ops {}) m f.p := by
  cases e with
  | @one b f0 f o hc' hp =>
    obtain ⟨_, _, hat, _⟩ := callFdd_parts hc'
    intro g hg
    rw [List.mem_singleton] at hg
    subst hg
    exact attached_pre hat ((List.prefix_append _ _).trans (hp.trans hc))
  | @many b ord fs f0 f o o' hc1 hc' hp =>
    obtain ⟨_, _, hat, _⟩ := callFdd_parts hc'
    obtain ⟨rfl, rfl⟩ := combine_parts hc1
    have hat' := attached_pre hat ((List.prefix_append _ [o']).trans (hp.trans hc))
    have hrun : Runs ops b (.cross (fs.map (·.p)) ord) (runOps b {}).gps.length := by
      obtain ⟨t, ht⟩ := hp.trans hc
      exact ⟨⟨o' :: t, by rw [← ht]; simp⟩, rfl, m, hat⟩
    intro g hg
    exact h.refs hat' (hrun.of (d := .cross (fs.map (·.p))) rfl) g.p (by simpa [ProcDef.refs] using ⟨g, hg, rfl⟩)

/-- In any reading, the mean and the variance are the expectations and covariances, with the noise, of the values. -/
theorem JointFdd.value (e : JointFdd c m fs f) (hc : c <+: ops) (h : I.Reads ops) (hn : FddNormal (runOps c {}) f v W) (hl : v.length = W.r)
    (hb : I.Blocks m (padded fs) zss) : W.r = zss.flatten.length ∧ W.c = zss.flatten.length ∧
      normalOf zss.flatten.length v W = obsNormal (I.S m) zss.flatten (Mat.blockDiag (fs.map (·.noise))) := by
  have key : ∃ p x N K, MeanCall (runOps ops {}) m p x v ∧ KernelCall (runOps ops {}) m p p x x K ∧ K.add N = some W ∧ I.F m p x = some zss.flatten ∧
      N.r = zss.flatten.length ∧ N.c = zss.flatten.length ∧
      ∀ i < zss.flatten.length, ∀ j < zss.flatten.length, N.e i j = (Mat.blockDiag (fs.map (·.noise))).e i j := by
    cases e with
    | @one b f0 f o hc0 hp =>
      obtain ⟨K, hv, hK, hW⟩ := callFdd_later hc0 hp hc hn
      obtain ⟨p, x, N, y, e, hF, -, -, hr, hc, hN⟩ := (ObsOf.single (ops := ops) (m := m) f0 (List.replicate f0.noise.r 0)).observes h hb
      cases e
      exact ⟨_, _, _, K, hv, hK, hW, hF, hr, hc, hN⟩
    | @many b ord fs f0 f o o' hc0 hc' hp =>
      obtain ⟨K, hv, hK, hW⟩ := callFdd_later hc' hp hc hn
      have hp := hp.trans hc
      have hc := hc0
      obtain ⟨_, _, hat, _⟩ := callFdd_parts hc'
      obtain ⟨rfl, rfl⟩ := combine_parts hc
      have hat' := attached_pre hat ((List.prefix_append _ [o']).trans hp)
      have hrun : Runs ops b (.cross (fs.map (·.p)) ord) (runOps b {}).gps.length := by
        obtain ⟨t, ht⟩ := hp
        exact ⟨⟨o' :: t, by rw [← ht]; simp⟩, rfl, m, hat⟩
      have hj := ObsOf.joint (l := padded fs) hrun hat' (by
        intro e he
        obtain ⟨e', he', rfl⟩ := List.mem_map.1 he
        exact List.mem_map.2 ⟨e', he', rfl⟩)
      obtain ⟨p, x, N, y, e, hF, -, -, hr, hc, hN⟩ := hj.observes h hb
      cases e
      rw [padded_noise] at hr hc hN
      refine ⟨_, _, _, K, hv, hK, hW, ?_, hr, hc, hN⟩
      rw [← hF]
      unfold padded
      rw [List.map_map]
      rfl
  obtain ⟨p, x, N, K, hv, hK, hW, hF, hr, hc, hN⟩ := key
  have hsz : K.r = N.r ∧ K.c = N.c := by
    by_contra hne
    rw [Mat.add, if_neg hne] at hW
    cases hW
  have hW' : W = ⟨K.r, K.c, fun i j => K.e i j + N.e i j⟩ := by
    rw [Mat.add, if_pos hsz] at hW
    exact (Option.some.inj hW).symm
  subst hW'
  have h1 : K.r = zss.flatten.length := hsz.1.trans hr
  have h2 : K.c = zss.flatten.length := hsz.2.trans hc
  have hmean := (h.mean hv hF).2 (hl.trans h1)
  have hcov := (h.kernel hK hF hF).e h1 h2
  refine ⟨h1, h2, ?_⟩
  unfold normalOf obsNormal
  congr 1
  · funext i
    show v.getD i 0 = (I.S m).E (zss.flatten.get i)
    rw [hmean, getD_lt (by rw [List.length_map]; exact i.2), List.getElem_map]
    rfl
  · ext i j
    show K.e i j + N.e i j = (I.S m).C _ _ + (Mat.blockDiag (fs.map (·.noise))).e i j
    rw [hN i i.2 j j.2, hcov i i.2 j j.2]
    simp only [covMat]
    rw [getD_lt i.2, getD_lt j.2]
    rfl

end

/-! ## Less variance -/

section
variable {V : Type} [AddCommGroup V] [Module ℝ V] {S S1 : SO V} {zs1 zs2 : List V} {n1 n2 : Mat} {y1 : List ℝ}

/-- Equal determinants, equal variances. -/
theorem log_det_eq {n : ℕ} {A D : Matrix (Fin n) (Fin n) ℝ} (hA : A.PosDef) (hD : D.PosSemidef) (h : Real.log (A + D).det ≤ Real.log A.det) : D = 0 := by
  have hAD := hA.add_posSemidef hD
  have hkl := C39_kl_zero (g := ⟨0, A⟩) (h := ⟨0, A + D⟩) hA hAD
  have ht := trace_mul_nonneg hAD.inv hD
  unfold Normal.kl at hkl
  simp only [sub_self, zero_dotProduct, zero_add] at hkl
  have e : ((A + D)⁻¹ * A).trace = n - ((A + D)⁻¹ * D).trace := by
    have : (A + D)⁻¹ * A + (A + D)⁻¹ * D = 1 := by
      rw [← Matrix.mul_add, nonsing_inv_mul _ (hAD.isUnit.map detMonoidHom)]
    have := congrArg Matrix.trace this
    rw [Matrix.trace_add, Matrix.trace_one, Fintype.card_fin] at this
    linarith
  rw [e] at hkl
  have h0 := (hkl.2.1 (le_antisymm (by linarith) hkl.1)).2
  exact (add_eq_left.1 h0.symm)

/-- The Schur complement is the variance after the update. -/
theorem IsUpdate.schur (h1 : IsUpdate S S1 zs1 n1 y1) (p1 : (noisyGram S zs1 n1).PosDef) :
    noisyGram S1 zs2 n2 = S.gr zs2.get zs2.get + n2.sq zs2.length - (S.gr zs1.get zs2.get)ᵀ * (noisyGram S zs1 n1)⁻¹ * S.gr zs1.get zs2.get := by
  ext i j
  show S1.C _ _ + n2.e i j = S.C _ _ + n2.e i j - _
  rw [h1.C p1, quadSum_eq]
  have : covs S zs1 (zs2.get i) ⬝ᵥ ((noisyGram S zs1 n1)⁻¹ *ᵥ covs S zs1 (zs2.get j)) =
      ((S.gr zs1.get zs2.get)ᵀ * (noisyGram S zs1 n1)⁻¹ * S.gr zs1.get zs2.get) i j := by
    rw [Matrix.mul_assoc, Matrix.mul_apply]
    rfl
  rw [this]
  ring

/-- The determinant of the variance of two lists of observations. -/
theorem IsUpdate.det (h1 : IsUpdate S S1 zs1 n1 y1) (p1 : (noisyGram S zs1 n1).PosDef) :
    (noisyGram S (zs1 ++ zs2) (n1.dsum n2)).det = (noisyGram S zs1 n1).det * (noisyGram S1 zs2 n2).det := by
  have d1 : IsUnit (noisyGram S zs1 n1).det := isUnit_iff_ne_zero.2 p1.det_pos.ne'
  rw [h1.schur p1, ← det_schur _ _ _ d1, ← noisyGram_blocks h1.r h1.c, det_submatrix_equiv_self]

/-- The chain rule for entropies. -/
theorem IsUpdate.entropy (h1 : IsUpdate S S1 zs1 n1 y1) (p1 : (noisyGram S zs1 n1).PosDef) (pj : (noisyGram S (zs1 ++ zs2) (n1.dsum n2)).PosDef) :
    (obsNormal S (zs1 ++ zs2) (n1.dsum n2)).entropy = (obsNormal S zs1 n1).entropy + (obsNormal S1 zs2 n2).entropy := by
  have hd := h1.det (zs2 := zs2) (n2 := n2) p1
  have h2 : (noisyGram S1 zs2 n2).det ≠ 0 := fun h0 => pj.det_pos.ne' (by rw [hd, h0, mul_zero])
  unfold Normal.entropy obsNormal
  simp only
  rw [hd, Real.log_mul p1.det_pos.ne' h2, List.length_append, Nat.cast_add]
  ring

/-- The variance after the update is positive definite. -/
theorem IsUpdate.posDef (hu : IsUpdate S S1 zs1 n1 y1) (p1 : (noisyGram S zs1 n1).PosDef) (pj : (noisyGram S (zs1 ++ zs2) (n1.dsum n2)).PosDef) :
    (noisyGram S1 zs2 n2).PosDef := by
  have hr := hu.r
  have hc := hu.c
  have hs := hu.schur (zs2 := zs2) (n2 := n2) p1
  have hpj : (fromBlocks (noisyGram S zs1 n1) (S.gr zs1.get zs2.get) (S.gr zs1.get zs2.get)ᵀ (S.gr zs2.get zs2.get + n2.sq zs2.length)).PosDef :=
    noisyGram_blocks (S := S) (zs2 := zs2) (n2 := n2) hr hc ▸ pj.submatrix (appEquiv zs1 zs2).injective
  have := p1.isUnit.invertible
  have hps := (PosDef.fromBlocks₁₁ (A := noisyGram S zs1 n1) (S.gr zs1.get zs2.get) (S.gr zs2.get zs2.get + n2.sq zs2.length) p1).1 (by
    rw [conjTranspose_eq_transpose_of_trivial]; exact hpj.posSemidef)
  rw [conjTranspose_eq_transpose_of_trivial, ← hs] at hps
  refine hps.posDef_iff_isUnit.2 ((Matrix.isUnit_iff_isUnit_det _).2 (isUnit_iff_ne_zero.2 fun h0 => ?_))
  have := hu.det (zs2 := zs2) (n2 := n2) p1
  rw [h0, mul_zero] at this
  exact pj.det_pos.ne' this

/-- Observing more values adds at most their own entropy, and exactly that if and only if they are uncorrelated. -/
theorem entropy_append (hr : n1.r = zs1.length) (hc : n1.c = zs1.length) (pj : (noisyGram S (zs1 ++ zs2) (n1.dsum n2)).PosDef) :
    (obsNormal S (zs1 ++ zs2) (n1.dsum n2)).entropy ≤ (obsNormal S zs1 n1).entropy + (obsNormal S zs2 n2).entropy ∧
    ((obsNormal S (zs1 ++ zs2) (n1.dsum n2)).entropy = (obsNormal S zs1 n1).entropy + (obsNormal S zs2 n2).entropy ↔
      ∀ z ∈ zs1, ∀ w ∈ zs2, S.C z w = 0) := by
  have p1 := noisyGram_left hr hc pj
  have hu := SO.observe_isUpdate (S := S) (y := []) hr hc
  set S1 := S.observe zs1 n1 [] with hS1
  have he := hu.entropy p1 pj
  have hs := hu.schur (zs2 := zs2) (n2 := n2) p1
  set D := (S.gr zs1.get zs2.get)ᵀ * (noisyGram S zs1 n1)⁻¹ * S.gr zs1.get zs2.get with hD
  have hDp : D.PosSemidef := by
    rw [hD]
    simpa using conj_posSemidef p1.inv.posSemidef (S.gr zs1.get zs2.get)ᵀ
  have h2 : noisyGram S zs2 n2 = noisyGram S1 zs2 n2 + D := by
    rw [hs, sub_add_cancel]
    rfl
  have pS := hu.posDef p1 pj
  have e2 : (obsNormal S zs2 n2).entropy = (Real.log (noisyGram S1 zs2 n2 + D).det + zs2.length * (Real.log (2 * Real.pi) + 1)) / 2 := by
    unfold Normal.entropy obsNormal
    simp only
    rw [h2]
  have e1 : (obsNormal S1 zs2 n2).entropy = (Real.log (noisyGram S1 zs2 n2).det + zs2.length * (Real.log (2 * Real.pi) + 1)) / 2 := rfl
  have hle := log_det_le pS hDp
  refine ⟨by rw [he, e1, e2]; linarith, fun h => ?_, fun h => ?_⟩
  · have h0 : D = 0 := log_det_eq pS hDp (by rw [he, e1, e2] at h; linarith)
    intro z hz w hw
    obtain ⟨i, rfl⟩ := List.get_of_mem hz
    obtain ⟨j, rfl⟩ := List.get_of_mem hw
    by_contra hne
    have hx : (fun i => S.gr zs1.get zs2.get i j) ≠ 0 := fun h => hne (congrFun h i)
    have hp := p1.inv.dotProduct_mulVec_pos hx
    have hj : D j j = 0 := by rw [h0]; rfl
    rw [hD, Matrix.mul_assoc, Matrix.mul_apply] at hj
    exact hp.ne' hj
  · have hB : S.gr zs1.get zs2.get = 0 := by
      ext i j
      exact h _ (List.get_mem _ _) _ (List.get_mem _ _)
    have h0 : D = 0 := by rw [hD, hB]; simp
    rw [he, e1, e2, h0, add_zero]

end

/-! ## Selections -/

section
variable {n k : ℕ}

/-- Fewer coordinates, in any order. -/
def Normal.select (g : Normal k) (e : Fin n → Fin k) : Normal n := ⟨fun i => g.mean (e i), fun i j => g.var (e i) (e j)⟩

/-- The matrix that selects coordinates. -/
def selector (e : Fin n → Fin k) : Matrix (Fin n) (Fin k) ℝ := fun i j => if e i = j then 1 else 0

theorem selector_mulVec (e : Fin n → Fin k) (x : Fin k → ℝ) : selector e *ᵥ x = fun i => x (e i) := by
  funext i
  simp [selector, Matrix.mulVec, dotProduct]

theorem selector_conj (e : Fin n → Fin k) (A : Matrix (Fin k) (Fin k) ℝ) : selector e * A * (selector e)ᵀ = fun i j => A (e i) (e j) := by
  ext i j
  simp [selector, Matrix.mul_apply]

theorem Normal.select_eq (g : Normal k) (e : Fin n → Fin k) : g.select e = ⟨selector e *ᵥ g.mean + 0, selector e * g.var * (selector e)ᵀ⟩ := by
  rw [selector_mulVec, selector_conj, add_zero]
  rfl

/-- The divergence between fewer coordinates is at most that between more. -/
theorem Normal.kl_select {g h : Normal k} (e : Fin n → Fin k) (hg : g.var.PosDef) (hh : h.var.PosDef) (hg' : (g.select e).var.PosDef)
    (hh' : (h.select e).var.PosDef) : (g.select e).kl (h.select e) ≤ g.kl h := by
  have X := Normal.isNormal_law hg.posSemidef
  have Y := Normal.isNormal_law hh.posSemidef
  have X' := (X.affine (selector e) 0).congr rfl (g.select_eq e)
  have Y' := (Y.affine (selector e) 0).congr rfl (h.select_eq e)
  obtain ⟨h1, h2⟩ := C39_kl X Y hg hh
  obtain ⟨h1', h2'⟩ := C39_kl X' Y' hg' hh'
  rw [← h2, ← h2']
  refine ENNReal.toReal_mono h1 ?_
  have hm : Measurable fun x : Fin k → ℝ => selector e *ᵥ x + 0 := by
    refine Continuous.measurable ?_
    fun_prop
  have hP := X.isProbabilityMeasure
  have hQ := Y.isProbabilityMeasure
  have hμ := Measure.isProbabilityMeasure_map (μ := g.law) X.gaussian.aemeasurable
  have hν := Measure.isProbabilityMeasure_map (μ := h.law) Y.gaussian.aemeasurable
  have := InformationTheory.klDiv_map_le (g.law.map fun x => x.ofLp) (h.law.map fun x => x.ofLp) hm
  rw [AEMeasurable.map_map_of_aemeasurable hm.aemeasurable X.gaussian.aemeasurable, AEMeasurable.map_map_of_aemeasurable hm.aemeasurable Y.gaussian.aemeasurable] at this
  exact this

/-- The distance between fewer coordinates is at most that between more. -/
theorem Normal.w2_select {g h : Normal k} {e : Fin n → Fin k} (he : Function.Injective e) (hg : g.var.PosDef) (hh : h.var.PosDef) (hg' : (g.select e).var.PosDef)
    (hh' : (h.select e).var.PosDef) : (g.select e).w2 (h.select e) ≤ g.w2 h := by
  obtain ⟨h0, -, Ω, _, P, X, Y, hX, hY, hXY⟩ := C39_w2 hg hh
  have hP := hX.isProbabilityMeasure
  have X' := (hX.affine (selector e) 0).congr rfl (g.select_eq e)
  have Y' := (hY.affine (selector e) 0).congr rfl (h.select_eq e)
  have hle := (C39_w2 hg' hh').2.1 Ω _ P hP _ _ X'.toDescribes Y'.toDescribes
  refine le_of_sq_le_sq ?_ h0
  rw [hXY]
  refine hle.trans (integral_mono ?_ ?_ fun ω => ?_)
  · exact integrable_finsetSum _ fun i _ => ((X'.memLp i).sub (Y'.memLp i)).integrable_sq
  · exact integrable_finsetSum _ fun i _ => ((hX.memLp i).sub (hY.memLp i)).integrable_sq
  · simp only [selector_mulVec, Pi.add_apply, Pi.zero_apply, add_zero]
    rw [← Finset.sum_image (s := Finset.univ) (g := e) (f := fun i => (X ω i - Y ω i) ^ 2) fun i _ j _ hij => he hij]
    exact Finset.sum_le_sum_of_subset_of_nonneg (Finset.subset_univ _) fun i _ _ => sq_nonneg _

end

/-- Position `i` of the values of `fs` is position `e i` of the values of `gs`. -/
structure Picks (fs gs : List Fdd) (e : ℕ → ℕ) : Prop where
  lt : ∀ i < (pointsOf fs).length, e i < (pointsOf gs).length
  inj : ∀ i < (pointsOf fs).length, ∀ j < (pointsOf fs).length, e i = e j → i = j
  point : ∀ i < (pointsOf fs).length, (pointsOf gs)[e i]? = (pointsOf fs)[i]?
  noise : ∀ i < (pointsOf fs).length, ∀ j < (pointsOf fs).length, (noiseOf fs).e i j = (noiseOf gs).e (e i) (e j)

/-- The noise has as many rows and columns as there are points. -/
def Fdd.Sized (f : Fdd) : Prop := f.noise.r = f.points.length ∧ f.noise.c = f.points.length

theorem pointsOf_cons (f : Fdd) (fs : List Fdd) : pointsOf (f :: fs) = f.points ++ pointsOf fs := rfl

theorem noiseOf_cons (f : Fdd) (fs : List Fdd) : noiseOf (f :: fs) = f.noise.dsum (noiseOf fs) := rfl

theorem Picks.trans {fs gs hs : List Fdd} {e e' : ℕ → ℕ} (h : Picks fs gs e) (h' : Picks gs hs e') : Picks fs hs (e' ∘ e) where
  lt i hi := h'.lt _ (h.lt i hi)
  inj i hi j hj hij := h.inj i hi j hj (h'.inj _ (h.lt i hi) _ (h.lt j hj) hij)
  point i hi := (h'.point _ (h.lt i hi)).trans (h.point i hi)
  noise i hi j hj := (h.noise i hi j hj).trans (h'.noise _ (h.lt i hi) _ (h.lt j hj))

theorem Picks.refl (fs : List Fdd) : Picks fs fs id :=
  ⟨fun _ h => h, fun _ _ _ _ h => h, fun _ _ => rfl, fun _ _ _ _ => rfl⟩

theorem Picks.skip {fs gs : List Fdd} {e : ℕ → ℕ} (h : Picks fs gs e) {f : Fdd} (hf : f.Sized) : Picks fs (f :: gs) fun i => f.points.length + e i where
  lt i hi := by
    have := h.lt i hi
    rw [pointsOf_cons, List.length_append]
    omega
  inj i hi j hj hij := h.inj i hi j hj (by omega)
  point i hi := by
    rw [pointsOf_cons, List.getElem?_append_right (by omega), Nat.add_sub_cancel_left]
    exact h.point i hi
  noise i hi j hj := by
    rw [noiseOf_cons, h.noise i hi j hj]
    simp only [Mat.dsum]
    rw [if_neg (by rw [hf.1]; omega), if_neg (by rw [hf.2]; omega), hf.1, hf.2, Nat.add_sub_cancel_left, Nat.add_sub_cancel_left]

theorem Picks.keep {fs gs : List Fdd} {e : ℕ → ℕ} (h : Picks fs gs e) {f : Fdd} (hf : f.Sized) :
    Picks (f :: fs) (f :: gs) fun i => if i < f.points.length then i else f.points.length + e (i - f.points.length) := by
  have key : ∀ i < (pointsOf (f :: fs)).length, i < f.points.length ∨ ∃ j < (pointsOf fs).length, i = f.points.length + j := fun i hi => by
    rw [pointsOf_cons, List.length_append] at hi
    by_cases hc : i < f.points.length
    · exact .inl hc
    · exact .inr ⟨i - f.points.length, by omega, by omega⟩
  refine ⟨fun i hi => ?_, fun i hi j hj hij => ?_, fun i hi => ?_, fun i hi j hj => ?_⟩
  · rw [pointsOf_cons, List.length_append]
    rcases key i hi with hc | ⟨i, li, rfl⟩
    · rw [if_pos hc]; omega
    · have := h.lt i li
      simp
      exact this
  · rcases key i hi with hc | ⟨i, li, rfl⟩ <;> rcases key j hj with hd | ⟨j, lj, rfl⟩
    · simpa [hc, hd] using hij
    · simp [hc] at hij
      omega
    · simp [hd] at hij
      omega
    · simp at hij
      rw [h.inj i li j lj hij]
  · rw [pointsOf_cons, pointsOf_cons]
    rcases key i hi with hc | ⟨i, li, rfl⟩
    · rw [if_pos hc, List.getElem?_append_left hc, List.getElem?_append_left hc]
    · have := h.point i li
      simpa [List.getElem?_append_right] using this
  · rw [noiseOf_cons, noiseOf_cons]
    simp only [Mat.dsum, hf.1, hf.2]
    rcases key i hi with hc | ⟨i, li, rfl⟩ <;> rcases key j hj with hd | ⟨j, lj, rfl⟩
    · simp [hc, hd]
    · simp [hc]
    · simp [hd]
    · simpa using h.noise i li j lj

theorem Picks.swap {f g : Fdd} (hf : f.Sized) (hg : g.Sized) (fs : List Fdd) : Picks (f :: g :: fs) (g :: f :: fs) fun i =>
    if i < f.points.length then g.points.length + i else if i < f.points.length + g.points.length then i - f.points.length else i := by
  have key : ∀ i < (pointsOf (f :: g :: fs)).length, i < f.points.length ∨ (∃ j < g.points.length, i = f.points.length + j) ∨
      ∃ j < (pointsOf fs).length, i = f.points.length + (g.points.length + j) := fun i hi => by
    rw [pointsOf_cons, pointsOf_cons, List.length_append, List.length_append] at hi
    by_cases hc : i < f.points.length
    · exact .inl hc
    · by_cases hd : i < f.points.length + g.points.length
      · exact .inr (.inl ⟨i - f.points.length, by omega, by omega⟩)
      · exact .inr (.inr ⟨i - f.points.length - g.points.length, by omega, by omega⟩)
  refine ⟨fun i hi => ?_, fun i hi j hj hij => ?_, fun i hi => ?_, fun i hi j hj => ?_⟩
  · rw [pointsOf_cons, pointsOf_cons, List.length_append, List.length_append] at hi ⊢
    split
    · omega
    · split <;> omega
  · split at hij <;> split at hij <;> (try split at hij) <;> (try split at hij) <;> omega
  · simp only [pointsOf_cons]
    rcases key i hi with hc | ⟨i, hc, rfl⟩ | ⟨i, hi, rfl⟩
    · rw [if_pos hc, List.getElem?_append_right (by omega), Nat.add_sub_cancel_left, List.getElem?_append_left hc, List.getElem?_append_left hc]
    · rw [if_neg (by omega), if_pos (by omega), Nat.add_sub_cancel_left, List.getElem?_append_left hc, List.getElem?_append_right (by omega), Nat.add_sub_cancel_left,
        List.getElem?_append_left hc]
    · rw [if_neg (by omega), if_neg (by omega), List.getElem?_append_right (by omega), List.getElem?_append_right (by omega), List.getElem?_append_right (by omega),
        List.getElem?_append_right (by omega)]
      congr 1
      omega
  · simp only [noiseOf_cons, Mat.dsum, hf.1, hf.2, hg.1, hg.2]
    rcases key i hi with hc | ⟨i, hc, rfl⟩ | ⟨i, hi, rfl⟩ <;> rcases key j hj with hd | ⟨j, hd, rfl⟩ | ⟨j, hj, rfl⟩
    · simp [hc, hd]
    · simp [hc, hd]
    · simp [hc]; intro h; omega
    · simp [hc, hd]
    · simp [hc, hd]
    · simp [hc]; intro h; omega
    · simp [hd]; intro h; omega
    · simp [hd]; intro h; omega
    · have e1 : f.points.length + (g.points.length + i) - g.points.length - f.points.length = i := by omega
      have e2 : f.points.length + (g.points.length + j) - g.points.length - f.points.length = j := by omega
      have n1 : ∀ t, ¬ f.points.length + (g.points.length + t) < f.points.length := fun t => by omega
      have n2 : ∀ t, ¬ f.points.length + (g.points.length + t) < f.points.length + g.points.length := fun t => by omega
      have n3 : ∀ t, ¬ f.points.length + (g.points.length + t) < g.points.length := fun t => by omega
      have n4 : ∀ t, ¬ f.points.length + (g.points.length + t) - g.points.length < f.points.length := fun t => by omega
      have n5 : ∀ t, ¬ g.points.length + t < g.points.length := fun t => by omega
      simp only [n1, n2, n3, n4, n5, if_false, e1, e2, Nat.add_sub_cancel_left]

theorem picks_sublist {fs gs : List Fdd} (h : fs.Sublist gs) (hg : ∀ f ∈ gs, f.Sized) : ∃ e, Picks fs gs e := by
  induction h with
  | slnil => exact ⟨id, .refl _⟩
  | cons a _ ih =>
    obtain ⟨e, he⟩ := ih fun f hf => hg f (by simp [hf])
    exact ⟨_, he.skip (hg a (by simp))⟩
  | cons_cons a _ ih =>
    obtain ⟨e, he⟩ := ih fun f hf => hg f (by simp [hf])
    exact ⟨_, he.keep (hg a (by simp))⟩

theorem picks_perm {fs gs : List Fdd} (h : fs.Perm gs) (hg : ∀ f ∈ gs, f.Sized) : ∃ e, Picks fs gs e := by
  induction h with
  | nil => exact ⟨id, .refl _⟩
  | cons a _ ih =>
    obtain ⟨e, he⟩ := ih fun f hf => hg f (by simp [hf])
    exact ⟨_, he.keep (hg a (by simp))⟩
  | swap a b l => exact ⟨_, .swap (hg b (by simp)) (hg a (by simp)) l⟩
  | trans _ h2 ih1 ih2 =>
    obtain ⟨e1, h1⟩ := ih1 fun f hf => hg f (h2.mem_iff.1 hf)
    obtain ⟨e2, h2⟩ := ih2 hg
    exact ⟨_, h1.trans h2⟩

/-- Some of the FDDs, in any order. -/
theorem picks_subperm {fs gs : List Fdd} (h : fs.Subperm gs) (hg : ∀ f ∈ gs, f.Sized) : ∃ e, Picks fs gs e := by
  obtain ⟨l, h1, h2⟩ := h
  obtain ⟨e2, h2'⟩ := picks_sublist h2 hg
  obtain ⟨e1, h1'⟩ := picks_perm h1.symm fun f hf => hg f (h2.subset hf)
  exact ⟨_, h1'.trans h2'⟩

end Stheno
