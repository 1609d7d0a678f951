import Verif.Information

/-!
# C64: observations are informative
-/

namespace Stheno

open Matrix

section
variable {G : Dom} {ops c b b' : List Op} {m m1 m2 : MId} {fs gs hs fs1 fs2 : List Fdd} {f : Fdd} {D : PId → ℕ} {l l' : List (Fdd × Vals)} {r r1 r2 r3 : ℝ}

/-- The values of FDDs. -/
noncomputable def valuesOf (F : PId → RF RV) (fs : List Fdd) : List RV := (pointsOf fs).map fun px => pointOf (F px.1) px.2

theorem valuesOf_length (F : PId → RF RV) (fs : List Fdd) : (valuesOf F fs).length = (pointsOf fs).length := List.length_map ..

theorem valuesOf_append (F : PId → RF RV) (fs gs : List Fdd) : valuesOf F (fs ++ gs) = valuesOf F fs ++ valuesOf F gs := by
  simp [valuesOf, pointsOf]

theorem noiseOf_append (fs gs : List Fdd) : noiseOf (fs ++ gs) = (noiseOf fs).dsum (noiseOf gs) := by
  unfold noiseOf
  rw [List.map_append, blockDiag_append]

theorem entropy_split (S : SO RV) (F : PId → RF RV) (fs gs : List Fdd) : (obsNormal S (valuesOf F (fs ++ gs)) (noiseOf (fs ++ gs))).entropy =
    (obsNormal S (valuesOf F fs ++ valuesOf F gs) ((noiseOf fs).dsum (noiseOf gs))).entropy := by
  rw [valuesOf_append, noiseOf_append]

theorem posDef_split {S : SO RV} {F : PId → RF RV} {fs gs : List Fdd} (h : (noisyGram S (valuesOf F (fs ++ gs)) (noiseOf (fs ++ gs))).PosDef) :
    (noisyGram S (valuesOf F fs ++ valuesOf F gs) ((noiseOf fs).dsum (noiseOf gs))).PosDef := by
  rw [valuesOf_append, noiseOf_append] at h
  exact h

theorem valuesOf_congr {F F' : PId → RF RV} (h : ∀ f ∈ fs, F f.p = F' f.p) : valuesOf F fs = valuesOf F' fs := by
  unfold valuesOf
  refine List.map_congr_left fun px hp => ?_
  unfold pointsOf at hp
  obtain ⟨l, hl, hp⟩ := List.mem_flatten.1 hp
  obtain ⟨f, hf, rfl⟩ := List.mem_map.1 hl
  have : px.1 = f.p := by
    unfold Fdd.points at hp
    split at hp
    · obtain ⟨x, _, rfl⟩ := List.mem_map.1 hp
      rfl
    · cases hp
  rw [this, h f hf]

theorem FitsF.sized (h : FitsF G f) : f.Sized := by
  obtain ⟨xs, hx, _, h1, h2⟩ := h
  unfold Fdd.Sized Fdd.points
  rw [hx, h1, h2]
  simp

theorem noiseOf_size (hf : ∀ f ∈ fs, f.Sized) : (noiseOf fs).r = (pointsOf fs).length ∧ (noiseOf fs).c = (pointsOf fs).length := by
  induction fs with
  | nil => exact ⟨rfl, rfl⟩
  | cons f fs ih =>
    obtain ⟨h1, h2⟩ := ih fun f h => hf f (by simp [h])
    obtain ⟨k1, k2⟩ := hf f (by simp)
    rw [noiseOf_cons, pointsOf_cons, List.length_append]
    simp only [Mat.dsum]
    omega

theorem Regular.padded_blocks (h : Regular G ops) (hf : ∀ f ∈ fs, FitsF G f) (ha : ∀ f ∈ fs, Attached (runOps ops {}) m f.p) :
    ∃ zss, (reading ops).Blocks m (padded fs) zss ∧ zss.flatten = valuesOf ((reading ops).F m) fs := by
  obtain ⟨zss, hb⟩ := h.blocks (m := m) (l := padded fs) (fun e he => by
    obtain ⟨f, hf', rfl⟩ := List.mem_map.1 he
    obtain ⟨xs, h1, h2, h3, h4⟩ := hf f hf'
    exact ⟨xs, h1, h2, h3, h4, by simpa using h3⟩) fun e he => by
    obtain ⟨f, hf', rfl⟩ := List.mem_map.1 he
    exact ha f hf'
  exact ⟨zss, hb, h.points_values hf hb⟩

/-- The joint distribution of FDDs. -/
noncomputable def jointOf (S : SO RV) (F : PId → RF RV) (fs : List Fdd) : Normal (pointsOf fs).length :=
  ⟨fun i => S.E ((valuesOf F fs).getD i 0), fun i j => S.C ((valuesOf F fs).getD i 0) ((valuesOf F fs).getD j 0) + (noiseOf fs).e i j⟩

theorem normal_congr {n k : ℕ} (e : n = k) {g : Normal n} {g' : Normal k} (hm : ∀ i, g.mean i = g'.mean (Fin.cast e i))
    (hv : ∀ i j, g.var i j = g'.var (Fin.cast e i) (Fin.cast e j)) : g.entropy = g'.entropy ∧ (g.var.PosDef ↔ g'.var.PosDef) := by
  subst e
  obtain ⟨a, A⟩ := g
  obtain ⟨a', A'⟩ := g'
  obtain rfl : a = a' := funext hm
  obtain rfl : A = A' := Matrix.ext hv
  exact ⟨rfl, Iff.rfl⟩

theorem jointOf_obs (S : SO RV) (F : PId → RF RV) (fs : List Fdd) : (jointOf S F fs).entropy = (obsNormal S (valuesOf F fs) (noiseOf fs)).entropy ∧
    ((jointOf S F fs).var.PosDef ↔ (noisyGram S (valuesOf F fs) (noiseOf fs)).PosDef) := by
  refine normal_congr (valuesOf_length F fs).symm (fun i => ?_) fun i j => ?_
  · show S.E _ = S.E ((valuesOf F fs).get _)
    rw [getD_lt (by rw [valuesOf_length]; exact i.2)]
    rfl
  · show S.C _ _ + _ = S.C ((valuesOf F fs).get _) ((valuesOf F fs).get _) + _
    rw [getD_lt (by rw [valuesOf_length]; exact i.2), getD_lt (by rw [valuesOf_length]; exact j.2)]
    rfl

/-- What is computed for FDDs. -/
theorem Regular.joint_of (h : Regular G ops) (hf : ∀ f ∈ fs, FitsF G f) {g : Fdd} (hc : c <+: ops) (e : JointFdd c m fs g) {v : List ℝ} {W : Mat} {n : ℕ}
    (hn : FddNormal (runOps c {}) g v W) (hr : W.r = n) (hl : v.length = n) :
    (∀ f ∈ fs, Attached (runOps ops {}) m f.p) ∧ n = (pointsOf fs).length ∧
      normalOf (pointsOf fs).length v W = jointOf ((reading ops).S m) ((reading ops).F m) fs := by
  have ha := e.attached hc h.reads
  obtain ⟨zss, hb, hz⟩ := h.padded_blocks hf ha
  obtain ⟨h1, h2, h3⟩ := e.value hc h.reads hn (hl.trans hr.symm) hb
  rw [hz] at h1 h2 h3
  rw [valuesOf_length] at h1
  refine ⟨ha, hr.symm.trans h1, ?_⟩
  have hm := fun i : Fin (valuesOf ((reading ops).F m) fs).length => congrFun (congrArg Normal.mean h3) i
  have hv := fun i j : Fin (valuesOf ((reading ops).F m) fs).length => congrFun (congrFun (congrArg Normal.var h3) i) j
  unfold normalOf jointOf
  congr 1
  · funext i
    have hi : (i : ℕ) < (valuesOf ((reading ops).F m) fs).length := by rw [valuesOf_length]; exact i.2
    refine (hm ⟨i, hi⟩).trans ?_
    rw [getD_lt hi]
    rfl
  · ext i j
    have hi : (i : ℕ) < (valuesOf ((reading ops).F m) fs).length := by rw [valuesOf_length]; exact i.2
    have hj : (j : ℕ) < (valuesOf ((reading ops).F m) fs).length := by rw [valuesOf_length]; exact j.2
    refine (hv ⟨i, hi⟩ ⟨j, hj⟩).trans ?_
    rw [getD_lt hi, getD_lt hj]
    rfl

/-- What an entropy is. -/
theorem EntropyOf.value (e : EntropyOf ops m fs r) (h : Regular G ops) (hf : ∀ f ∈ fs, FitsF G f) :
    (∀ f ∈ fs, Attached (runOps ops {}) m f.p) ∧ (noisyGram ((reading ops).S m) (valuesOf ((reading ops).F m) fs) (noiseOf fs)).PosDef ∧
      r = (obsNormal ((reading ops).S m) (valuesOf ((reading ops).F m) fs) (noiseOf fs)).entropy := by
  obtain ⟨c, g, hc, hj, n, v, W, hn, h1, h2, h3, hp, rfl⟩ := e
  obtain ⟨ha, rfl, he⟩ := h.joint_of hf hc hj hn h1 h3
  have hp' : (normalOf (pointsOf fs).length v W).var.PosDef := hp
  rw [he] at hp' ⊢
  obtain ⟨k1, k2⟩ := jointOf_obs ((reading ops).S m) ((reading ops).F m) fs
  exact ⟨ha, k2.1 hp', k1⟩

/-- What a divergence is. -/
theorem KlOf.value (e : KlOf ops m m1 fs r) (h : Regular G ops) (hf : ∀ f ∈ fs, FitsF G f) :
    (jointOf ((reading ops).S m) ((reading ops).F m) fs).var.PosDef ∧ (jointOf ((reading ops).S m1) ((reading ops).F m1) fs).var.PosDef ∧
      r = (jointOf ((reading ops).S m) ((reading ops).F m) fs).kl (jointOf ((reading ops).S m1) ((reading ops).F m1) fs) := by
  obtain ⟨c, g, g', hc, hj, hj', n, v, W, v', W', hn, hn', h1, h2, h3, h1', h2', h3', hp, hp', rfl⟩ := e
  obtain ⟨-, rfl, he⟩ := h.joint_of hf hc hj hn h1 h3
  obtain ⟨-, -, he'⟩ := h.joint_of hf hc hj' hn' h1' h3'
  rw [← he, ← he']
  exact ⟨hp, hp', rfl⟩

/-- What a distance is. -/
theorem W2Of.value (e : W2Of ops m m1 fs r) (h : Regular G ops) (hf : ∀ f ∈ fs, FitsF G f) :
    (jointOf ((reading ops).S m) ((reading ops).F m) fs).var.PosDef ∧ (jointOf ((reading ops).S m1) ((reading ops).F m1) fs).var.PosDef ∧
      r = (jointOf ((reading ops).S m) ((reading ops).F m) fs).w2 (jointOf ((reading ops).S m1) ((reading ops).F m1) fs) := by
  obtain ⟨c, g, g', hc, hj, hj', n, v, W, v', W', hn, hn', h1, h2, h3, h1', h2', h3', hp, hp', rfl⟩ := e
  obtain ⟨-, rfl, he⟩ := h.joint_of hf hc hj hn h1 h3
  obtain ⟨-, -, he'⟩ := h.joint_of hf hc hj' hn' h1' h3'
  rw [← he, ← he']
  exact ⟨hp, hp', rfl⟩

/-- The values of some of the FDDs, in any order, are some of the values. -/
theorem Picks.joint {e : ℕ → ℕ} (hp : Picks fs gs e) (S : SO RV) (F : PId → RF RV) :
    jointOf S F fs = (jointOf S F gs).select fun i => ⟨e i, hp.lt i i.2⟩ := by
  have hv : ∀ i < (pointsOf fs).length, (valuesOf F fs).getD i 0 = (valuesOf F gs).getD (e i) 0 := fun i hi => by
    unfold valuesOf
    rw [List.getD_eq_getElem?_getD, List.getD_eq_getElem?_getD, List.getElem?_map, List.getElem?_map, hp.point i hi]
  unfold jointOf Normal.select
  congr 1
  · funext i
    simp only
    rw [hv i i.2]
  · ext i j
    simp only
    rw [hv i i.2, hv j j.2, hp.noise i i.2 j j.2]

/-- **C64.** In regular programs: the divergence between two measures for some of the FDDs, in any order, is at most that for all of them. -/
theorem C64_kl (h : Regular G ops) (hs : fs.Subperm gs) (hg : ∀ f ∈ gs, FitsF G f) (e : KlOf ops m m1 fs r) (e1 : KlOf ops m m1 gs r1) : r ≤ r1 := by
  obtain ⟨i, hi⟩ := picks_subperm hs fun f hf => (hg f hf).sized
  obtain ⟨p1, p2, rfl⟩ := e.value h fun f hf => hg f (hs.subset hf)
  obtain ⟨q1, q2, rfl⟩ := e1.value h hg
  rw [hi.joint] at p1 ⊢
  rw [hi.joint] at p2 ⊢
  exact Normal.kl_select _ q1 q2 p1 p2

/-- **C64.** In regular programs: the distance between two measures for some of the FDDs, in any order, is at most that for all of them. -/
theorem C64_w2 (h : Regular G ops) (hs : fs.Subperm gs) (hg : ∀ f ∈ gs, FitsF G f) (e : W2Of ops m m1 fs r) (e1 : W2Of ops m m1 gs r1) : r ≤ r1 := by
  obtain ⟨i, hi⟩ := picks_subperm hs fun f hf => (hg f hf).sized
  obtain ⟨p1, p2, rfl⟩ := e.value h fun f hf => hg f (hs.subset hf)
  obtain ⟨q1, q2, rfl⟩ := e1.value h hg
  rw [hi.joint] at p1 ⊢
  rw [hi.joint] at p2 ⊢
  refine Normal.w2_select (fun a b hab => Fin.ext (hi.inj a a.2 b b.2 (congrArg Fin.val hab))) q1 q2 p1 p2

/-- The determinant does not depend on the order. -/
theorem Picks.det {e : ℕ → ℕ} (hp : Picks fs gs e) (hl : (pointsOf fs).length = (pointsOf gs).length) (S : SO RV) (F : PId → RF RV) :
    (jointOf S F fs).entropy = (jointOf S F gs).entropy := by
  have hb : Function.Bijective fun i : Fin (pointsOf fs).length => (⟨e i, hp.lt i i.2⟩ : Fin (pointsOf gs).length) := by
    rw [Fintype.bijective_iff_injective_and_card]
    exact ⟨fun a b hab => Fin.ext (hp.inj a a.2 b b.2 (congrArg Fin.val hab)), by simpa using hl⟩
  have hd : (jointOf S F fs).var.det = (jointOf S F gs).var.det := by
    rw [hp.joint, ← det_submatrix_equiv_self (Equiv.ofBijective _ hb)]
    rfl
  unfold Normal.entropy
  rw [hd, hl]

theorem pointsOf_perm (h : fs.Perm gs) : (pointsOf fs).length = (pointsOf gs).length := by
  unfold pointsOf
  exact ((h.map _).flatten).length_eq

/-- **C64.** In regular programs: entropies do not depend on the order of the FDDs. -/
theorem C64_order (h : Regular G ops) (hs : fs.Perm gs) (hg : ∀ f ∈ gs, FitsF G f) (e : EntropyOf ops m fs r) (e1 : EntropyOf ops m gs r1) : r = r1 := by
  obtain ⟨i, hi⟩ := picks_perm hs fun f hf => (hg f hf).sized
  obtain ⟨-, -, rfl⟩ := e.value h fun f hf => hg f (hs.subset hf)
  obtain ⟨-, -, rfl⟩ := e1.value h hg
  rw [← (jointOf_obs _ _ _).1, ← (jointOf_obs _ _ _).1]
  exact hi.det (pointsOf_perm hs) _ _

/-! ## Less entropy -/

theorem gram_update {S S1 : SO RV} {zs ws : List RV} {W : Matrix (Fin zs.length) (Fin zs.length) ℝ} (hC : ∀ u v, S1.C u v = S.C u v - quadSum S zs W u v)
    (hW : W.PosSemidef) : (gram S ws - gram S1 ws).PosSemidef := by
  have : gram S ws - gram S1 ws = quads S zs ws W := by
    ext i j
    show S.C _ _ - S1.C _ _ = quadSum S zs W _ _
    rw [hC]
    ring
  rw [this]
  exact quadSum_posSemidef S zs ws hW

/-- Conditioning, also on pseudo-observations, gives less variance. -/
theorem Gives.less {o : Obs} (g : Gives ops b m o m1) (h : Regular G ops) (ws : List RV) :
    (gram ((reading ops).S m) ws - gram ((reading ops).S m1) ws).PosSemidef := by
  obtain ⟨after, e⟩ := g.split
  have hP := (g.law h.reads).2
  have hfo := g.firm h.firm
  have hno := h.noise m o (by rw [e]; simp)
  have ho := h.obs b m o after e g.has
  cases o with
  | exact p z noise y =>
    rcases hP with ⟨_, hS⟩ | ⟨_, zs, hz, hu⟩
    · rw [hS, sub_self]
      exact PosSemidef.zero
    · obtain ⟨hp, hy⟩ := hfo zs hz
      exact gram_update (hu.C hp) hp.inv.posSemidef
  | pseudo pu p o =>
    obtain ⟨zs, xs, hz, hx, hu⟩ := hP
    obtain ⟨hp, hy⟩ := hfo zs xs hz hx
    obtain ⟨zs', hz', lz⟩ := h.observed_value e g.has ho.2.2.1
    obtain ⟨xs', hx', lx⟩ := h.observed_value e g.has ho.2.2.2
    rw [hz'] at hz; cases hz
    rw [hx'] at hx; cases hx
    refine gram_update (W := (noisyGram ((reading ops).S m) zs o.noiseZ)⁻¹ - (sparseA o.method (noisyGram ((reading ops).S m) zs o.noiseZ)
      (crossGram ((reading ops).S m) zs xs) (fun j => ((reading ops).S m).C (xs.get j) (xs.get j)) (fun j => o.noiseX.mat.e j j))⁻¹) (fun u v => ?_) ?_
    · rw [hu.C hp, quadSum_sub]
      ring
    · refine inv_sub_posSemidef hp ?_
      have hD : (diagonal (sparseNoise o.method (noisyGram ((reading ops).S m) zs o.noiseZ) (crossGram ((reading ops).S m) zs xs)
          (fun j => ((reading ops).S m).C (xs.get j) (xs.get j)) (fun j => o.noiseX.mat.e j j)))⁻¹.PosSemidef :=
        PosSemidef.inv (PosSemidef.diagonal (Pi.le_def.2 fun j => (hno.2 j (j.2.trans_eq lx)).trans
          (sparseNoise_of (h.pos m) hu.zr hu.zc (by rw [lz]; exact hno.1) hp j)))
      have := hD.mul_mul_conjTranspose_same (crossGram ((reading ops).S m) zs xs)
      rwa [conjTranspose_eq_transpose_of_trivial] at this

/-- The values of an FDD. -/
theorem Regular.fdd_value (h : Regular G ops) (hf : FitsF G f) (ha : Attached (runOps ops {}) m f.p) :
    (reading ops).F m f.p f.x = some (f.points.map fun px => pointOf ((reading ops).F m px.1) px.2) := by
  obtain ⟨zss, hb, hz⟩ := h.padded_blocks (m := m) (fs := [f]) (by simpa using hf) (by simpa using ha)
  unfold padded at hb
  cases hb with
  | cons e e' =>
    cases e'
    rw [e.1]
    simpa [valuesOf, pointsOf] using hz

/-- Values of a list of FDDs are values of one of them. -/
theorem mem_valuesOf {F : PId → RF RV} {z : RV} (hz : z ∈ valuesOf F fs) : ∃ f ∈ fs, z ∈ f.points.map fun px => pointOf (F px.1) px.2 := by
  obtain ⟨px, hp, rfl⟩ := List.mem_map.1 hz
  obtain ⟨l, hl, hp⟩ := List.mem_flatten.1 hp
  obtain ⟨f, hf, rfl⟩ := List.mem_map.1 hl
  exact ⟨f, hf, List.mem_map.2 ⟨px, hp, rfl⟩⟩

theorem valuesOf_mem {F : PId → RF RV} {z : RV} (hf : f ∈ fs) (hz : z ∈ f.points.map fun px => pointOf (F px.1) px.2) : z ∈ valuesOf F fs := by
  obtain ⟨px, hp, rfl⟩ := List.mem_map.1 hz
  exact List.mem_map.2 ⟨px, List.mem_flatten.2 ⟨_, List.mem_map.2 ⟨f, hf, rfl⟩, hp⟩, rfl⟩

/-- What a call of a kernel for two FDDs returns. -/
theorem Regular.fdd_kernel {g : Fdd} (h : Regular G ops) (hf : FitsF G f) (hg : FitsF G g) (af : Attached (runOps ops {}) m f.p) (ag : Attached (runOps ops {}) m g.p) :
    ∃ A, KernelCall (runOps ops {}) m f.p g.p f.x g.x A ∧ A.Eqv (covMat ((reading ops).S m) (f.points.map fun px => pointOf ((reading ops).F m px.1) px.2)
      (g.points.map fun px => pointOf ((reading ops).F m px.1) px.2)) := by
  have e1 := h.fdd_value hf af
  have e2 := h.fdd_value hg ag
  obtain ⟨xs, hx, cx, -⟩ := hf
  obtain ⟨ys, hy, cy, -⟩ := hg
  rw [hx] at e1 ⊢
  rw [hy] at e2 ⊢
  obtain ⟨A, hA, -⟩ := h.kernel af ag cx cy
  exact ⟨A, hA, h.kernel_eq af ag cx cy hA e1 e2⟩

/-- **C64.** In regular programs: conditioning on anything, also on pseudo-observations, does not increase the entropy of any FDDs, and leaves it the same if and only if it does
not change what kernels return for them. -/
theorem C64_less {o : Obs} (h : Regular G ops) (g : Gives ops b m o m1) (hf : ∀ f ∈ fs, FitsF G f) (ha : ∀ f ∈ fs, Attached (runOps b {}) m f.p)
    (e : EntropyOf ops m fs r) (e1 : EntropyOf ops m1 fs r1) : r1 ≤ r ∧
      (r1 = r ↔ ∀ f ∈ fs, ∀ f' ∈ fs, ∀ A A1, KernelCall (runOps ops {}) m f.p f'.p f.x f'.x A → KernelCall (runOps ops {}) m1 f.p f'.p f.x f'.x A1 → A1.Eqv A) := by
  obtain ⟨-, p1, rfl⟩ := e.value h hf
  obtain ⟨-, p2, rfl⟩ := e1.value h hf
  have hF : ∀ f ∈ fs, (reading ops).F m1 f.p = (reading ops).F m f.p := fun f hf => (g.law h.reads).1 f.p (ha f hf)
  have hv : valuesOf ((reading ops).F m1) fs = valuesOf ((reading ops).F m) fs := valuesOf_congr hF
  rw [hv] at p2 ⊢
  have hD := g.less h (valuesOf ((reading ops).F m) fs)
  set S := (reading ops).S m with hS
  set S1 := (reading ops).S m1 with hS1
  set vs := valuesOf ((reading ops).F m) fs with hvs
  have hK : noisyGram S vs (noiseOf fs) = noisyGram S1 vs (noiseOf fs) + (gram S vs - gram S1 vs) := by
    unfold noisyGram
    abel
  have E1 : (obsNormal S vs (noiseOf fs)).entropy = (Real.log (noisyGram S1 vs (noiseOf fs) + (gram S vs - gram S1 vs)).det + vs.length * (Real.log (2 * Real.pi) + 1)) / 2 := by
    rw [← hK]
    rfl
  have E2 : (obsNormal S1 vs (noiseOf fs)).entropy = (Real.log (noisyGram S1 vs (noiseOf fs)).det + vs.length * (Real.log (2 * Real.pi) + 1)) / 2 := rfl
  have hle := log_det_le p2 hD
  have afm : ∀ f ∈ fs, Attached (runOps ops {}) m f.p := fun f hf => g.attached_prior (ha f hf)
  have afm1 : ∀ f ∈ fs, Attached (runOps ops {}) m1 f.p := fun f hf => g.attached (ha f hf)
  refine ⟨by rw [E1, E2]; linarith, fun he => ?_, fun he => ?_⟩
  · have h0 : gram S vs - gram S1 vs = 0 := log_det_eq p2 hD (by rw [E1, E2] at he; linarith)
    have hC : ∀ z ∈ vs, ∀ w ∈ vs, S1.C z w = S.C z w := fun z hz w hw => by
      obtain ⟨i, rfl⟩ := List.get_of_mem hz
      obtain ⟨j, rfl⟩ := List.get_of_mem hw
      have := congrFun (congrFun h0 i) j
      exact (sub_eq_zero.1 this).symm
    intro f hf' f' hf'' A A1 hA hA1
    obtain ⟨B, hB, eB⟩ := h.fdd_kernel (hf f hf') (hf f' hf'') (afm f hf') (afm f' hf'')
    obtain ⟨B1, hB1, eB1⟩ := h.fdd_kernel (hf f hf') (hf f' hf'') (afm1 f hf') (afm1 f' hf'')
    rw [hA.unique hB, hA1.unique hB1]
    have k1 := fun (f : Fdd) (hf : f ∈ fs) => valuesOf_congr (fs := [f]) (F := (reading ops).F m1) (F' := (reading ops).F m) (by simpa using hF f hf)
    simp only [valuesOf, pointsOf, List.map_cons, List.map_nil, List.flatten_cons, List.flatten_nil, List.append_nil] at k1
    rw [k1 f hf', k1 f' hf''] at eB1
    refine (eB1.trans ?_).trans eB.symm
    refine ⟨rfl, rfl, fun i hi j hj => ?_⟩
    simp only [covMat] at hi hj ⊢
    rw [getD_lt hi, getD_lt hj]
    exact hC _ (valuesOf_mem hf' (List.getElem_mem hi)) _ (valuesOf_mem hf'' (List.getElem_mem hj))
  · have h0 : gram S vs - gram S1 vs = 0 := by
      refine sub_eq_zero.2 ?_
      ext i j
      obtain ⟨f, hf', hi⟩ := mem_valuesOf (List.get_mem vs i)
      obtain ⟨f', hf'', hj⟩ := mem_valuesOf (List.get_mem vs j)
      obtain ⟨B, hB, eB⟩ := h.fdd_kernel (hf f hf') (hf f' hf'') (afm f hf') (afm f' hf'')
      obtain ⟨B1, hB1, eB1⟩ := h.fdd_kernel (hf f hf') (hf f' hf'') (afm1 f hf') (afm1 f' hf'')
      have hE := he f hf' f' hf'' B B1 hB hB1
      have k1 := fun (f : Fdd) (hf : f ∈ fs) => valuesOf_congr (fs := [f]) (F := (reading ops).F m1) (F' := (reading ops).F m) (by simpa using hF f hf)
      simp only [valuesOf, pointsOf, List.map_cons, List.map_nil, List.flatten_cons, List.flatten_nil, List.append_nil] at k1
      rw [k1 f hf', k1 f' hf''] at eB1
      have hEE := (eB1.symm.trans hE).trans eB
      obtain ⟨a, la, ea⟩ := List.mem_iff_getElem.1 hi
      obtain ⟨c, lc, ec⟩ := List.mem_iff_getElem.1 hj
      have := hEE.e a la c lc
      simp only [covMat] at this
      rw [getD_lt la, getD_lt lc, ea, ec] at this
      exact this.symm
    rw [E1, E2, h0, add_zero]

/-- **C64.** In regular programs: the entropy of FDDs together is at most the sum of their entropies, and equal to it if and only if the kernels between them return zeros. -/
theorem C64_together (h : Regular G ops) (hf : ∀ f ∈ fs, FitsF G f) (hg : ∀ f ∈ gs, FitsF G f) (e : EntropyOf ops m fs r) (e1 : EntropyOf ops m gs r1)
    (e2 : EntropyOf ops m (fs ++ gs) r2) : r2 ≤ r + r1 ∧
      (r2 = r + r1 ↔ ∀ f ∈ fs, ∀ g ∈ gs, ∀ A, KernelCall (runOps ops {}) m f.p g.p f.x g.x A → ∀ i < A.r, ∀ j < A.c, A.e i j = 0) := by
  obtain ⟨af, -, rfl⟩ := e.value h hf
  obtain ⟨ag, -, rfl⟩ := e1.value h hg
  obtain ⟨-, pj, rfl⟩ := e2.value h fun f hf' => by
    rcases List.mem_append.1 hf' with h' | h'
    · exact hf f h'
    · exact hg f h'
  rw [valuesOf_append, noiseOf_append] at pj ⊢
  obtain ⟨hr, hc⟩ := noiseOf_size (fs := fs) fun f h' => (hf f h').sized
  rw [← valuesOf_length ((reading ops).F m)] at hr hc
  obtain ⟨k1, k2⟩ := entropy_append hr hc pj
  refine ⟨k1, k2.trans ⟨fun hz f hf' g hg' A hA => ?_, fun hz z hz' w hw => ?_⟩⟩
  · obtain ⟨B, hB, eB⟩ := h.fdd_kernel (hf f hf') (hg g hg') (af f hf') (ag g hg')
    rw [hA.unique hB]
    intro i hi j hj
    rw [eB.e i (eB.r ▸ hi) j (eB.c ▸ hj)]
    have hi' : i < (f.points.map fun px => pointOf ((reading ops).F m px.1) px.2).length := hi.trans_eq eB.r
    have hj' : j < (g.points.map fun px => pointOf ((reading ops).F m px.1) px.2).length := hj.trans_eq eB.c
    simp only [covMat]
    rw [getD_lt hi', getD_lt hj']
    exact hz _ (valuesOf_mem hf' (List.getElem_mem hi')) _ (valuesOf_mem hg' (List.getElem_mem hj'))
  · obtain ⟨f, hf', hi⟩ := mem_valuesOf hz'
    obtain ⟨g, hg', hj⟩ := mem_valuesOf hw
    obtain ⟨B, hB, eB⟩ := h.fdd_kernel (hf f hf') (hg g hg') (af f hf') (ag g hg')
    obtain ⟨a, la, ea⟩ := List.mem_iff_getElem.1 hi
    obtain ⟨c, lc, ec⟩ := List.mem_iff_getElem.1 hj
    have h0 := hz f hf' g hg' B hB a (eB.r ▸ la) c (eB.c ▸ lc)
    have := eB.e a la c lc
    rw [h0] at this
    simp only [covMat] at this
    rw [getD_lt la, getD_lt lc, ea, ec] at this
    exact this.symm

/-- **C64.** In regular programs: what FDDs add to the entropy of others is less the more there are of these. -/
theorem C64_diminishing (h : Regular G ops) (hf : ∀ f ∈ fs, FitsF G f) (hg : ∀ f ∈ gs, FitsF G f) (hh : ∀ f ∈ hs, FitsF G f) (e : EntropyOf ops m fs r)
    (e1 : EntropyOf ops m (fs ++ gs) r1) (e2 : EntropyOf ops m (fs ++ hs) r2) (e3 : EntropyOf ops m (fs ++ (gs ++ hs)) r3) : r3 - r1 ≤ r2 - r := by
  have happ : ∀ {a b : List Fdd}, (∀ f ∈ a, FitsF G f) → (∀ f ∈ b, FitsF G f) → ∀ f ∈ a ++ b, FitsF G f := fun ha hb f hf' => by
    rcases List.mem_append.1 hf' with h' | h'
    · exact ha f h'
    · exact hb f h'
  obtain ⟨-, p, rfl⟩ := e.value h hf
  obtain ⟨-, p1, rfl⟩ := e1.value h (happ hf hg)
  obtain ⟨-, p2, rfl⟩ := e2.value h (happ hf hh)
  obtain ⟨-, p3, rfl⟩ := e3.value h (happ hf (happ hg hh))
  have p1 := posDef_split p1
  have p2 := posDef_split p2
  have p3 := posDef_split p3
  rw [entropy_split, entropy_split, entropy_split]
  obtain ⟨hr, hc⟩ := noiseOf_size (fs := fs) fun f h' => (hf f h').sized
  obtain ⟨gr, gc⟩ := noiseOf_size (fs := gs) fun f h' => (hg f h').sized
  rw [← valuesOf_length ((reading ops).F m)] at hr hc gr gc
  have hu := SO.observe_isUpdate (S := (reading ops).S m) (y := []) hr hc
  have q3 := hu.posDef p p3
  rw [hu.entropy p p1, hu.entropy p p2, hu.entropy p p3]
  rw [valuesOf_append, noiseOf_append] at q3 ⊢
  have := (entropy_append gr gc q3).1
  linarith

/-! ## Conditional entropies -/

/-- `fs` are FDDs at the data of `l` that are available. -/
def AtAvailable (fs : List Fdd) (l : List (Fdd × Vals)) : Prop :=
  List.Forall₂ (fun f e => f.p = (available e).1.p ∧ f.x = (available e).1.x ∧ f.noise.Eqv (available e).1.noise) fs l

theorem AtAvailable.points (h : AtAvailable fs l) : pointsOf fs = pointsOf ((l.map available).map (·.1)) ∧
    (noiseOf fs).Eqv (noiseOf ((l.map available).map (·.1))) := by
  induction h with
  | nil => exact ⟨rfl, .refl _⟩
  | @cons f e fs l h _ ih =>
    obtain ⟨h1, h2, h3⟩ := h
    rw [List.map_cons, List.map_cons, pointsOf_cons, pointsOf_cons, noiseOf_cons, noiseOf_cons, ih.1]
    refine ⟨?_, dsum_eqv h3 ih.2⟩
    congr 1
    unfold Fdd.points
    rw [h1, h2]

theorem AtAvailable.fits (h : AtAvailable fs l) (hl : ∀ e ∈ l, FitsV G e) : ∀ f ∈ fs, FitsF G f := by
  induction h with
  | nil => simp
  | @cons f e fs l h _ ih =>
    intro g hg
    rcases List.mem_cons.1 hg with rfl | hg
    · obtain ⟨h1, h2, h3⟩ := h
      obtain ⟨xs, k1, k2, k3, k4, -⟩ := (hl e (by simp)).fits
      exact ⟨xs, h2.trans k1, h1 ▸ k2, h3.r.trans k3, h3.c.trans k4⟩
    · exact ih (fun e he => hl e (by simp [he])) g hg

/-- Without missing data, the FDDs themselves. -/
theorem AtAvailable.full (hl : ∀ e ∈ l, FitsV G e ∧ e.2.all Option.isSome = true) : AtAvailable (l.map (·.1)) l := by
  induction l with
  | nil => exact .nil
  | cons e l ih =>
    refine .cons ?_ (ih fun e he => hl e (by simp [he]))
    obtain ⟨⟨xs, hx, _, h1, h2, h3⟩, hs⟩ := hl e (by simp)
    have hall := isSome_all hs
    have hpos := positions_all hall
    refine ⟨rfl, ?_, ?_⟩
    · rw [available_x hx, pick_all (by simp [h3]) hall, hx]
    · refine Mat.Eqv.trans ?_ available_noise
      rw [hpos]
      have hlen : (e.2.map Option.isSome).length = xs.length := by rw [List.length_map, h3]
      refine ⟨?_, ?_, fun i hi j hj => ?_⟩
      · simp [Mat.sub2, h1, h3]
      · simp [Mat.sub2, h2, h3]
      · simp only [Mat.sub2, List.length_range] at hi hj ⊢
        rw [getD_lt (by simpa using hi), getD_lt (by simpa using hj)]
        simp

/-- Conditioning is an update with the values of the FDDs. -/
theorem AtAvailable.update (hA : AtAvailable fs l) (h : Regular G ops) (ht : Tells (Dead G) D ops) (hl : ∀ e ∈ l, FitsV G e) (c : Conditioned ops b m l m1) :
    IsUpdate ((reading ops).S m) ((reading ops).S m1) (valuesOf ((reading ops).F m) fs) (noiseOf fs) ((l.map available).flatMap (·.2)) ∧
    (noisyGram ((reading ops).S m) (valuesOf ((reading ops).F m) fs) (noiseOf fs)).PosDef ∧
    ∀ q, Attached (runOps b {}) m q → (reading ops).F m1 q = (reading ops).F m q := by
  obtain ⟨bq, o, hb, g, ho, ha⟩ := c.gives ht hl
  have hfit := fits_available hl
  have hat : ∀ e ∈ l.map available, Attached (runOps ops {}) m e.1.p := fun e he => by
    obtain ⟨e', he', rfl⟩ := List.mem_map.1 he
    exact g.attached_prior (ha e' he')
  obtain ⟨zss, hz⟩ := h.blocks hfit hat
  obtain ⟨hu, hp⟩ := g.blocks_any h.reads h.firm ho hz hfit
  have hpad : (reading ops).Blocks m (padded ((l.map available).map (·.1))) zss := by
    clear hu hp hfit hat ho
    generalize l.map available = k at hz
    induction hz with
    | nil => exact .nil
    | cons h1 _ ih => exact .cons ⟨h1.1, h1.2.1, h1.2.2.1, by simpa using h1.2.1⟩ ih
  have hvals := h.points_values (fun f hf => by
    obtain ⟨e, he, rfl⟩ := List.mem_map.1 hf
    obtain ⟨xs, k1, k2, k3, k4, -⟩ := hfit e he
    exact ⟨xs, k1, k2, k3, k4⟩) hpad
  rw [← hA.points.1] at hvals
  have hN := hA.points.2
  have hnoise : Mat.blockDiag ((l.map available).map (·.1.noise)) = noiseOf ((l.map available).map (·.1)) := by
    unfold noiseOf
    rw [List.map_map (l := l.map available)]
    rfl
  rw [hnoise] at hu hp
  change _ = valuesOf ((reading ops).F m) fs at hvals
  rw [hvals] at hu hp
  have hf := hA.fits hl
  obtain ⟨hr, hc⟩ := noiseOf_size fun f h' => (hf f h').sized
  rw [← valuesOf_length ((reading ops).F m)] at hr hc
  have he : ∀ i < (valuesOf ((reading ops).F m) fs).length, ∀ j < (valuesOf ((reading ops).F m) fs).length,
      (noiseOf ((l.map available).map (·.1))).e i j = (noiseOf fs).e i j := fun i hi j hj => (hN.e i (by rw [hu.r]; exact hi) j (by rw [hu.c]; exact hj)).symm
  exact ⟨hu.congr hr hc he, noisyGram_congr he ▸ hp, fun q hq => (g.law h.reads).1 q (attached_pre hq hb)⟩

/-- **C64.** In regular programs: the entropy of FDDs together is the entropy of some of them plus the entropy of the others after conditioning on data, whatever they are, for the
former, in all notations and with missing data. -/
theorem C64_chain (h : Regular G ops) (ht : Tells (Dead G) D ops) (c : Conditioned ops b m l m1) (hl : ∀ e ∈ l, FitsV G e) (hA : AtAvailable fs l)
    (hg : ∀ g ∈ gs, FitsF G g) (ha : ∀ g ∈ gs, Attached (runOps b {}) m g.p) (e : EntropyOf ops m fs r) (e1 : EntropyOf ops m1 gs r1)
    (e2 : EntropyOf ops m (fs ++ gs) r2) : r2 = r + r1 := by
  have hf := hA.fits hl
  obtain ⟨hu, hp, hF⟩ := hA.update h ht hl c
  obtain ⟨-, -, rfl⟩ := e.value h hf
  obtain ⟨-, -, rfl⟩ := e1.value h hg
  obtain ⟨-, pj, rfl⟩ := e2.value h fun f hf' => by
    rcases List.mem_append.1 hf' with h' | h'
    · exact hf f h'
    · exact hg f h'
  have pj := posDef_split pj
  rw [entropy_split]
  rw [hu.entropy hp pj, valuesOf_congr fun g hg' => hF g.p (ha g hg')]

/-- Positive definite before and after. -/
theorem IsUpdate.posDef_join {S S1 : SO RV} {zs1 zs2 : List RV} {n1 n2 : Mat} {y1 : List ℝ} (hu : IsUpdate S S1 zs1 n1 y1) (p1 : (noisyGram S zs1 n1).PosDef)
    (p2 : (noisyGram S1 zs2 n2).PosDef) : (noisyGram S (zs1 ++ zs2) (n1.dsum n2)).PosDef := by
  have hs := hu.schur (zs2 := zs2) (n2 := n2) p1
  have := p1.isUnit.invertible
  have hps := (PosDef.fromBlocks₁₁ (A := noisyGram S zs1 n1) (S.gr zs1.get zs2.get) (S.gr zs2.get zs2.get + n2.sq zs2.length) p1).2 (by
    rw [conjTranspose_eq_transpose_of_trivial, ← hs]; exact p2.posSemidef)
  rw [conjTranspose_eq_transpose_of_trivial, ← noisyGram_blocks hu.r hu.c] at hps
  have hsub := hps.submatrix (appEquiv zs1 zs2).symm
  rw [submatrix_submatrix, Equiv.self_comp_symm, submatrix_id_id] at hsub
  refine hsub.posDef_iff_isUnit.2 ((Matrix.isUnit_iff_isUnit_det _).2 (isUnit_iff_ne_zero.2 ?_))
  rw [hu.det p1]
  exact mul_ne_zero p1.det_pos.ne' p2.det_pos.ne'

/-- **C64.** In regular programs: conditioning on data, whatever they are, for FDDs takes from the entropy of other FDDs what conditioning on data for these takes from the entropy of
the former, in all notations and with missing data. -/
theorem C64_mutual (h : Regular G ops) (ht : Tells (Dead G) D ops) (c : Conditioned ops b m l m1) (c' : Conditioned ops b' m l' m2) (hl : ∀ e ∈ l, FitsV G e)
    (hl' : ∀ e ∈ l', FitsV G e) (hA : AtAvailable fs l) (hB : AtAvailable gs l') (ha : ∀ f ∈ fs, Attached (runOps b' {}) m f.p)
    (hb : ∀ g ∈ gs, Attached (runOps b {}) m g.p) (e : EntropyOf ops m fs r) (e1 : EntropyOf ops m2 fs r1) (e2 : EntropyOf ops m gs r2) (e3 : EntropyOf ops m1 gs r3) :
    r - r1 = r2 - r3 := by
  have hf := hA.fits hl
  have hg := hB.fits hl'
  obtain ⟨hu, hp, hF⟩ := hA.update h ht hl c
  obtain ⟨hu', hp', hF'⟩ := hB.update h ht hl' c'
  obtain ⟨-, -, rfl⟩ := e.value h hf
  obtain ⟨-, p1, rfl⟩ := e1.value h hf
  obtain ⟨-, -, rfl⟩ := e2.value h hg
  obtain ⟨-, p3, rfl⟩ := e3.value h hg
  rw [valuesOf_congr fun f hf' => hF' f.p (ha f hf')] at p1 ⊢
  rw [valuesOf_congr fun g hg' => hF g.p (hb g hg')] at p3 ⊢
  have q := hu.posDef_join hp p3
  have q' := hu'.posDef_join hp' p1
  have k := hu.entropy hp q
  have k' := hu'.entropy hp' q'
  have hperm : (fs ++ gs).Perm (gs ++ fs) := List.perm_append_comm
  obtain ⟨i, hi⟩ := picks_perm hperm fun f hf' => by
    rcases List.mem_append.1 hf' with h' | h'
    · exact (hg f h').sized
    · exact (hf f h').sized
  have hd := hi.det (pointsOf_perm hperm) ((reading ops).S m) ((reading ops).F m)
  rw [(jointOf_obs _ _ _).1, (jointOf_obs _ _ _).1] at hd
  rw [entropy_split, entropy_split] at hd
  linarith

/-! ## Entropies and divergences exist -/

theorem FddNormal.pre {b c : List Op} (hb : b <+: c) {g : Fdd} {v : List ℝ} {W : Mat} (h : FddNormal (runOps b {}) g v W) : FddNormal (runOps c {}) g v W := by
  obtain ⟨m, K, h1, h2, h3, h4⟩ := h
  have h1' := gpMeasure_pre hb h1
  obtain ⟨t, rfl⟩ := hb
  exact ⟨m, K, h1', C05_mean_call h2, C05_kernel_call h3, h4⟩

theorem var_posDef {K N V : Mat} {S : SO RV} {zs : List RV} (hV : K.add N = some V) (hE : K.Eqv (covMat S zs zs)) (hS : S.Pos)
    (hN : (N.sq N.r).PosDef) : V.c = V.r ∧ (V.sq V.r).PosDef := by
  have hsz : K.r = N.r ∧ K.c = N.c := by
    by_contra hne
    rw [Mat.add, if_neg hne] at hV
    cases hV
  have hV' : V = ⟨K.r, K.c, fun i j => K.e i j + N.e i j⟩ := by
    rw [Mat.add, if_pos hsz] at hV
    exact (Option.some.inj hV).symm
  subst hV'
  have hr : K.r = zs.length := hE.r
  refine ⟨hE.c.trans hE.r.symm, ?_⟩
  have hp : (K.sq K.r).PosSemidef := by
    have h1 := gram_posSemidef S zs hS
    have h2 := h1.submatrix (Fin.cast hr)
    convert h2 using 1
    ext i j
    have hi : (i : ℕ) < zs.length := by omega
    have hj : (j : ℕ) < zs.length := by omega
    show K.e i j = S.C (zs.get _) (zs.get _)
    rw [hE.e i hi j hj]
    simp only [covMat]
    rw [getD_lt hi, getD_lt hj]
    rfl
  have hN' : (N.sq K.r).PosDef := by rw [hsz.1]; exact hN
  exact hN'.posSemidef_add hp

/-- If the noises are positive definite, then the variance can be decomposed. -/
theorem JointFdd.returns {g : Fdd} (e : JointFdd ops m fs g) (h : Regular G ops) (hne : fs ≠ []) (hf : ∀ f ∈ fs, FitsF G f)
    (hN : ∀ f ∈ fs, (f.noise.sq f.noise.r).PosDef) : ∃ v W, FddNormal (runOps ops {}) g v W ∧ W.r = (pointsOf fs).length ∧
      W.c = (pointsOf fs).length ∧ v.length = (pointsOf fs).length ∧ (W.sq (pointsOf fs).length).PosDef := by
  have key : ∃ v W, FddNormal (runOps ops {}) g v W ∧ W.c = W.r ∧ v.length = W.r ∧ (W.sq W.r).PosDef := by
    cases e with
    | @one b f0 f o hc hp =>
      obtain ⟨e1, e2, hat, hat', hgm⟩ := callFdd_parts hc
      subst e1
      have hreg := h.pre hp
      obtain ⟨xs, hx, hC, s1, s2⟩ := hf f0 (by simp)
      have hatB : Attached (runOps (b ++ [.call m f0.p]) {}) m f0.p := attached_append _ hat
      obtain ⟨t1, t2, _⟩ := C33_table (ops := b ++ [.call m f0.p]) ⟨⟨[], rfl⟩, rfl, m, hat'⟩ hat' (mem_members.2 hat)
      obtain ⟨v, hv, lv⟩ := hreg.mean hatB hC
      obtain ⟨K, hK, rK, cK⟩ := hreg.kernel hatB hatB hC hC
      obtain ⟨vs, hF, lF⟩ := hreg.value hatB hC
      have hE := hreg.kernel_eq hatB hatB hC hC hK hF hF
      have hV : FddNormal (runOps (b ++ [.call m f0.p]) {}) g v ⟨K.r, K.c, fun i j => K.e i j + f0.noise.e i j⟩ := by
        rw [e2]
        refine ⟨m, K, hgm, ?_, ?_, if_pos ⟨rK.trans s1.symm, cK.trans s2.symm⟩⟩
        · obtain ⟨a, n, ha, hv⟩ := hv
          exact ⟨a, n, by rw [t1]; exact ha, by simpa [hx] using hv⟩
        · obtain ⟨k, n, hk, hA⟩ := hK
          exact ⟨k, n, by rw [t2]; exact hk, by simpa [hx] using hA⟩
      obtain ⟨h1, h2⟩ := var_posDef (if_pos ⟨rK.trans s1.symm, cK.trans s2.symm⟩ : K.add f0.noise = some _) hE (hreg.pos m) (hN f0 (by simp))
      exact ⟨_, _, hV.pre hp, h1, lv.trans rK.symm, h2⟩
    | @many b ord fs f0 f o o' hc hc' hp =>
      have hs : sampleArgs (runOps b {}) ord m fs = some ([o, o'], g) := by
        unfold sampleArgs
        rw [hc]
        show (do let (o', f) ← callFdd (o.after (runOps b {})) m f0; pure ([o, o'], f)) = _
        have e : o.after (runOps b {}) = runOps (b ++ [o]) {} := by rw [runOps_append]; rfl
        rw [e, hc']
        rfl
      have hp' : b ++ [o, o'] <+: ops := by simpa using hp
      obtain ⟨v, V, hV, lv, rV, cV, _, ⟨K, zs, hK, hE⟩, _⟩ := joint_normal h hs hp' hne hf
      obtain ⟨h1, h2⟩ := var_posDef hK hE ((h.pre hp').pos m) (blockDiag_posDef fun M hM => by
        obtain ⟨f, hf', rfl⟩ := List.mem_map.1 hM
        obtain ⟨xs, h1, h2, h3, h4⟩ := hf f hf'
        exact ⟨h4.trans h3.symm, hN f hf'⟩)
      exact ⟨v, V, hV.pre hp', h1, lv.trans rV.symm, h2⟩
  obtain ⟨v, W, hn, h1, h2, h3⟩ := key
  obtain ⟨-, hl, -⟩ := h.joint_of hf (List.prefix_refl _) e hn rfl h2
  exact ⟨v, W, hn, hl, h1.trans hl, h2.trans hl, hl ▸ h3⟩

/-- **C64.** In regular programs: for positive definite noise, the entropy is computed for all FDDs that are combined. -/
theorem C64_entropy {g : Fdd} (h : Regular G ops) (hne : fs ≠ []) (hf : ∀ f ∈ fs, FitsF G f) (hN : ∀ f ∈ fs, (f.noise.sq f.noise.r).PosDef)
    (e : JointFdd ops m fs g) : ∃ r, EntropyOf ops m fs r := by
  obtain ⟨v, W, hn, h1, h2, h3, h4⟩ := e.returns h hne hf hN
  exact ⟨_, ops, g, List.prefix_refl _, e, ⟨_, v, W, hn, h1, h2, h3, h4, rfl⟩⟩

/-- **C64.** In regular programs: for positive definite noise, divergences and distances are computed for all FDDs that are combined. -/
theorem C64_divergence {g g' : Fdd} (h : Regular G ops) (hne : fs ≠ []) (hf : ∀ f ∈ fs, FitsF G f) (hN : ∀ f ∈ fs, (f.noise.sq f.noise.r).PosDef)
    (e : JointFdd ops m fs g) (e' : JointFdd ops m1 fs g') : (∃ r, KlOf ops m m1 fs r) ∧ ∃ r, W2Of ops m m1 fs r := by
  obtain ⟨v, W, hn, h1, h2, h3, h4⟩ := e.returns h hne hf hN
  obtain ⟨v', W', hn', h1', h2', h3', h4'⟩ := e'.returns h hne hf hN
  exact ⟨⟨_, ops, g, g', List.prefix_refl _, e, e', ⟨_, v, W, v', W', hn, hn', h1, h2, h3, h1', h2', h3', h4, h4', rfl⟩⟩,
    ⟨_, ops, g, g', List.prefix_refl _, e, e', ⟨_, v, W, v', W', hn, hn', h1, h2, h3, h1', h2', h3', h4, h4', rfl⟩⟩⟩

theorem Regular.fdd_mean (h : Regular G ops) (hf : FitsF G f) (af : Attached (runOps ops {}) m f.p) :
    MeanCall (runOps ops {}) m f.p f.x (f.points.map fun px => ((reading ops).S m).E (pointOf ((reading ops).F m px.1) px.2)) := by
  have e1 := h.fdd_value hf af
  obtain ⟨xs, hx, cx, -⟩ := hf
  obtain ⟨v, hv, lv⟩ := h.mean af cx
  rw [hx] at e1 ⊢
  have he := (h.reads.mean hv e1).2 (by
    have : f.points.length = xs.length := by
      unfold Fdd.points
      rw [hx]
      simp
    rw [lv, List.length_map, this])
  rw [List.map_map] at he
  exact he ▸ hv

/-- When two joint distributions are the same. -/
theorem jointOf_eq (h : Regular G ops) (hf : ∀ f ∈ fs, FitsF G f) (ha : ∀ f ∈ fs, Attached (runOps ops {}) m f.p) (ha1 : ∀ f ∈ fs, Attached (runOps ops {}) m1 f.p) :
    ((jointOf ((reading ops).S m) ((reading ops).F m) fs).mean = (jointOf ((reading ops).S m1) ((reading ops).F m1) fs).mean ∧
      (jointOf ((reading ops).S m) ((reading ops).F m) fs).var = (jointOf ((reading ops).S m1) ((reading ops).F m1) fs).var) ↔
    (∀ f ∈ fs, ∀ v v1, MeanCall (runOps ops {}) m f.p f.x v → MeanCall (runOps ops {}) m1 f.p f.x v1 → v = v1) ∧
      ∀ f ∈ fs, ∀ f' ∈ fs, ∀ A A1, KernelCall (runOps ops {}) m f.p f'.p f.x f'.x A → KernelCall (runOps ops {}) m1 f.p f'.p f.x f'.x A1 → A.Eqv A1 := by
  have hpt : ∀ px ∈ pointsOf fs, ∃ f ∈ fs, px ∈ f.points := fun px hp => by
    obtain ⟨l, hl, hp⟩ := List.mem_flatten.1 hp
    obtain ⟨f, hf, rfl⟩ := List.mem_map.1 hl
    exact ⟨f, hf, hp⟩
  have hpt' : ∀ f ∈ fs, ∀ px ∈ f.points, px ∈ pointsOf fs := fun f hf px hp => List.mem_flatten.2 ⟨_, List.mem_map.2 ⟨f, hf, rfl⟩, hp⟩
  have hval : ∀ (F : PId → RF RV) (i : ℕ) (hi : i < (pointsOf fs).length), (valuesOf F fs).getD i 0 = pointOf (F (pointsOf fs)[i].1) (pointsOf fs)[i].2 := fun F i hi => by
    rw [getD_lt (by rw [valuesOf_length]; exact hi)]
    exact List.getElem_map ..
  have hm : (jointOf ((reading ops).S m) ((reading ops).F m) fs).mean = (jointOf ((reading ops).S m1) ((reading ops).F m1) fs).mean ↔
      ∀ px ∈ pointsOf fs, ((reading ops).S m).E (pointOf ((reading ops).F m px.1) px.2) = ((reading ops).S m1).E (pointOf ((reading ops).F m1 px.1) px.2) := by
    constructor
    · intro he px hp
      obtain ⟨i, hi, rfl⟩ := List.mem_iff_getElem.1 hp
      have := congrFun he ⟨i, hi⟩
      simp only [jointOf] at this
      rwa [hval _ i hi, hval _ i hi] at this
    · intro he
      funext i
      simp only [jointOf]
      rw [hval _ i i.2, hval _ i i.2]
      exact he _ (List.getElem_mem _)
  have hk : (jointOf ((reading ops).S m) ((reading ops).F m) fs).var = (jointOf ((reading ops).S m1) ((reading ops).F m1) fs).var ↔
      ∀ px ∈ pointsOf fs, ∀ py ∈ pointsOf fs, ((reading ops).S m).C (pointOf ((reading ops).F m px.1) px.2) (pointOf ((reading ops).F m py.1) py.2) =
        ((reading ops).S m1).C (pointOf ((reading ops).F m1 px.1) px.2) (pointOf ((reading ops).F m1 py.1) py.2) := by
    constructor
    · intro he px hp py hq
      obtain ⟨i, hi, rfl⟩ := List.mem_iff_getElem.1 hp
      obtain ⟨j, hj, rfl⟩ := List.mem_iff_getElem.1 hq
      have := congrFun (congrFun he ⟨i, hi⟩) ⟨j, hj⟩
      simp only [jointOf] at this
      rw [hval _ i hi, hval _ i hi, hval _ j hj, hval _ j hj] at this
      exact add_right_cancel this
    · intro he
      ext i j
      simp only [jointOf]
      rw [hval _ i i.2, hval _ i i.2, hval _ j j.2, hval _ j j.2, he _ (List.getElem_mem _) _ (List.getElem_mem _)]
  rw [hm, hk]
  refine and_congr ⟨fun he f hf' v v1 hv hv1 => ?_, fun he px hp => ?_⟩ ⟨fun he f hf' f' hf'' A A1 hA hA1 => ?_, fun he px hp py hq => ?_⟩
  · rw [hv.unique (h.fdd_mean (hf f hf') (ha f hf')), hv1.unique (h.fdd_mean (hf f hf') (ha1 f hf'))]
    exact List.map_congr_left fun px hp => he px (hpt' f hf' px hp)
  · obtain ⟨f, hf', hp⟩ := hpt px hp
    have := he f hf' _ _ (h.fdd_mean (hf f hf') (ha f hf')) (h.fdd_mean (hf f hf') (ha1 f hf'))
    exact List.map_inj_left.1 this px hp
  · obtain ⟨B, hB, eB⟩ := h.fdd_kernel (hf f hf') (hf f' hf'') (ha f hf') (ha f' hf'')
    obtain ⟨B1, hB1, eB1⟩ := h.fdd_kernel (hf f hf') (hf f' hf'') (ha1 f hf') (ha1 f' hf'')
    rw [hA.unique hB, hA1.unique hB1]
    refine (eB.trans ?_).trans eB1.symm
    refine ⟨by simp [covMat], by simp [covMat], fun i hi j hj => ?_⟩
    simp only [covMat, List.length_map] at hi hj ⊢
    rw [getD_lt (by simpa using hi), getD_lt (by simpa using hj), getD_lt (by simpa using hi), getD_lt (by simpa using hj)]
    simp only [List.getElem_map]
    exact he _ (hpt' f hf' _ (List.getElem_mem _)) _ (hpt' f' hf'' _ (List.getElem_mem _))
  · obtain ⟨f, hf', hp⟩ := hpt px hp
    obtain ⟨f', hf'', hq⟩ := hpt py hq
    obtain ⟨B, hB, eB⟩ := h.fdd_kernel (hf f hf') (hf f' hf'') (ha f hf') (ha f' hf'')
    obtain ⟨B1, hB1, eB1⟩ := h.fdd_kernel (hf f hf') (hf f' hf'') (ha1 f hf') (ha1 f' hf'')
    have hE := (eB.symm.trans (he f hf' f' hf'' _ _ hB hB1)).trans eB1
    obtain ⟨i, hi, rfl⟩ := List.mem_iff_getElem.1 hp
    obtain ⟨j, hj, rfl⟩ := List.mem_iff_getElem.1 hq
    have := hE.e i (by simpa [covMat] using hi) j (by simpa [covMat] using hj)
    simp only [covMat] at this
    rw [getD_lt (by simpa using hi), getD_lt (by simpa using hj), getD_lt (by simpa using hi), getD_lt (by simpa using hj)] at this
    simpa only [List.getElem_map] using this

/-- **C64.** In regular programs: divergences are not negative, and zero exactly if all mean and kernel calls of the FDDs are the same under both
measures. -/
theorem C64_kl_zero (h : Regular G ops) (hf : ∀ f ∈ fs, FitsF G f) (e : KlOf ops m m1 fs r) : 0 ≤ r ∧ (r = 0 ↔
    (∀ f ∈ fs, ∀ v v1, MeanCall (runOps ops {}) m f.p f.x v → MeanCall (runOps ops {}) m1 f.p f.x v1 → v = v1) ∧
      ∀ f ∈ fs, ∀ f' ∈ fs, ∀ A A1, KernelCall (runOps ops {}) m f.p f'.p f.x f'.x A → KernelCall (runOps ops {}) m1 f.p f'.p f.x f'.x A1 → A.Eqv A1) := by
  obtain ⟨p, p1, rfl⟩ := e.value h hf
  obtain ⟨c, g, g', hc, hj, hj', -⟩ := e
  rw [← jointOf_eq h hf (hj.attached hc h.reads) (hj'.attached hc h.reads)]
  exact C39_kl_zero p p1

/-- **C64.** The same for distances. -/
theorem C64_w2_zero (h : Regular G ops) (hf : ∀ f ∈ fs, FitsF G f) (e : W2Of ops m m1 fs r) : 0 ≤ r ∧ (r = 0 ↔
    (∀ f ∈ fs, ∀ v v1, MeanCall (runOps ops {}) m f.p f.x v → MeanCall (runOps ops {}) m1 f.p f.x v1 → v = v1) ∧
      ∀ f ∈ fs, ∀ f' ∈ fs, ∀ A A1, KernelCall (runOps ops {}) m f.p f'.p f.x f'.x A → KernelCall (runOps ops {}) m1 f.p f'.p f.x f'.x A1 → A.Eqv A1) := by
  obtain ⟨p, p1, rfl⟩ := e.value h hf
  obtain ⟨c, g, g', hc, hj, hj', -⟩ := e
  rw [← jointOf_eq h hf (hj.attached hc h.reads) (hj'.attached hc h.reads)]
  exact ⟨(C39_w2 p p1).1, C39_w2_zero p p1⟩

end

/-! ## An example -/

/-- An FDD. -/
noncomputable def early : Fdd := ⟨0, .num [[0]], eye 1⟩

/-- Another one. -/
noncomputable def late : Fdd := ⟨0, .num [[1]], eye 1⟩

/-- A GP, observed at one point and, alternatively, at another. Then the FDDs `m(fdd)` of the process in the three measures, of both points in the first and in
the second measure, and of one point twice with the other in the first measure. -/
noncomputable def survey : List Op :=
  [.gp .zero affine none none, .condition 0 (.exact 0 (.num [[0]]) (eye 1) [1]), .condition 0 (.exact 0 (.num [[1]]) (eye 1) [2]), .call 0 0, .call 1 0, .call 2 0,
    .cross [0, 0] [0, 1, 2], .call 0 4, .cross [0, 0] [0, 1, 2], .call 1 6, .cross [0, 0, 0] [0, 1, 2], .call 0 8]

/-- The processes of `survey` with several outputs. -/
def surveyC (p : PId) : Prop := 4 ≤ p

instance : DecidablePred surveyC := fun p => inferInstanceAs (Decidable (4 ≤ p))

/-- The numbers of outputs. -/
def surveyD (p : PId) : ℕ := if p < 8 then 2 else 3

theorem survey_noisy : Noisy survey := by
  intro m obs h
  simp only [survey, List.mem_cons, reduceCtorEq, List.not_mem_nil, or_false, false_or, Op.condition.injEq] at h
  rcases h with ⟨_, rfl⟩ | ⟨_, rfl⟩ <;> exact eye_posDef 1 1

theorem survey_regular : Regular (off surveyC) survey := by
  refine .of_noisy_off ⟨?_, ?_, ?_, fun m obs h => (survey_noisy m obs h).psd, smooth_of (by simp [survey])⟩ survey_noisy
    (.of_exact (by simp [survey]))
  · have hs := affine_psd
    intro o ho
    simp only [survey, List.mem_cons, List.not_mem_nil, or_false] at ho
    rcases ho with rfl | rfl | rfl | rfl | rfl | rfl | rfl | rfl | rfl | rfl | rfl | rfl
    all_goals first
      | exact ⟨trivial, trivial, hs⟩
      | trivial
      | (intro h; cases h)
  · refine splits (ops := survey) (P := fun before o => ∀ m, ∀ e ∈ o.written (runOps before {}).gps.length m,
      ¬ surveyC e.1 → e.2.TotalOff surveyC) ⟨?_, ?_, ?_, ?_, ?_, ?_, ?_, ?_, ?_, ?_, ?_, ?_, trivial⟩
    all_goals
      intro m e he
      first
        | exact (List.not_mem_nil he).elim
        | have he := List.mem_singleton.1 he
          subst he
          first
            | exact fun _ => ⟨trivial, trivial⟩
            | exact fun _ => (by decide : ¬ surveyC _)
            | exact fun h => (h (by decide : 4 ≤ _)).elim
  · intro before m obs after e hm
    refine splits (ops := survey) (P := fun before o => ∀ m obs, o = .condition m obs → ObsFitsOff surveyC before m obs)
      ⟨?_, ?_, ?_, ?_, ?_, ?_, ?_, ?_, ?_, ?_, ?_, ?_, trivial⟩ before _ after e m obs rfl
    all_goals
      intro m obs e
      first
        | (exfalso; cases e; done)
        | cases e
    · exact ⟨rfl, rfl, rfl, .inl ⟨⟨_, rfl⟩, attached_iff.2 rfl, by decide⟩⟩
    · exact ⟨rfl, rfl, rfl, .inl ⟨⟨_, rfl⟩, attached_iff.2 rfl, by decide⟩⟩

theorem survey_tells : Tells (Dead (off surveyC)) surveyD survey := by
  rw [dead_off]
  refine splits (ops := survey) (P := fun before o => ∀ m, ∀ e ∈ o.written (runOps before {}).gps.length m,
      Sorted surveyC e ∧ Counts surveyD e) ⟨?_, ?_, ?_, ?_, ?_, ?_, ?_, ?_, ?_, ?_, ?_, ?_, trivial⟩
  all_goals
    intro m e he
    first
      | exact (List.not_mem_nil he).elim
      | have he := List.mem_singleton.1 he
        subst he
        first
          | exact ⟨⟨fun _ => ⟨trivial, trivial⟩, fun h => absurd h (by decide : ¬ surveyC _)⟩, trivial⟩
          | exact ⟨⟨fun _ => (by decide : ¬ surveyC _), fun h => absurd h (by decide : ¬ surveyC _)⟩, rfl⟩
          | exact ⟨⟨fun h => absurd (by decide : surveyC _) h, fun _ => ⟨by simp, by decide⟩⟩, rfl⟩
          | exact ⟨⟨fun h => absurd (by decide : surveyC _) h, fun _ => (by decide : surveyC _)⟩, rfl⟩

theorem survey_fits : FitsF (off surveyC) early ∧ FitsF (off surveyC) late :=
  ⟨⟨_, rfl, rows_off (by decide), rfl, rfl⟩, ⟨_, rfl, rows_off (by decide), rfl, rfl⟩⟩

theorem survey_one {f : Fdd} (hf : f = early ∨ f = late) (m : MId) (hm : m = 0 ∨ m = 1 ∨ m = 2) : ∃ g, JointFdd survey m [f] g := by
  rcases hm with rfl | rfl | rfl
  · refine ⟨⟨1, f.x, f.noise⟩, .one (b := survey.take 3) (o := .call 0 0) ?_ ⟨survey.drop 4, rfl⟩⟩
    rcases hf with rfl | rfl <;> rfl
  · refine ⟨⟨2, f.x, f.noise⟩, .one (b := survey.take 4) (o := .call 1 0) ?_ ⟨survey.drop 5, rfl⟩⟩
    rcases hf with rfl | rfl <;> rfl
  · refine ⟨⟨3, f.x, f.noise⟩, .one (b := survey.take 5) (o := .call 2 0) ?_ ⟨survey.drop 6, rfl⟩⟩
    rcases hf with rfl | rfl <;> rfl

theorem survey_both : ∃ g, JointFdd survey 0 [early, late] g :=
  ⟨_, .many (b := survey.take 6) (ord := [0, 1, 2]) (o := .cross [0, 0] [0, 1, 2]) (o' := .call 0 4) rfl rfl ⟨survey.drop 8, rfl⟩⟩

theorem survey_both' : ∃ g, JointFdd survey 1 [early, late] g :=
  ⟨_, .many (b := survey.take 8) (ord := [0, 1, 2]) (o := .cross [0, 0] [0, 1, 2]) (o' := .call 1 6) rfl rfl ⟨survey.drop 10, rfl⟩⟩

theorem survey_three : ∃ g, JointFdd survey 0 [early, early, late] g :=
  ⟨_, .many (b := survey.take 10) (ord := [0, 1, 2]) (o := .cross [0, 0, 0] [0, 1, 2]) (o' := .call 0 8) rfl rfl ⟨survey.drop 12, rfl⟩⟩

theorem survey_good {fs : List Fdd} (h : ∀ f ∈ fs, f = early ∨ f = late) : (∀ f ∈ fs, FitsF (off surveyC) f) ∧ ∀ f ∈ fs, (f.noise.sq f.noise.r).PosDef := by
  refine ⟨fun f hf => ?_, fun f hf => ?_⟩
  · rcases h f hf with rfl | rfl
    · exact survey_fits.1
    · exact survey_fits.2
  · rcases h f hf with rfl | rfl <;> exact eye_posDef 1 1

theorem survey_entropy {fs : List Fdd} (hne : fs ≠ []) (h : ∀ f ∈ fs, f = early ∨ f = late) {m : MId} (e : ∃ g, JointFdd survey m fs g) : ∃ r, EntropyOf survey m fs r :=
  e.elim fun _ e => C64_entropy survey_regular hne (survey_good h).1 (survey_good h).2 e

theorem survey_early : Conditioned survey (survey.take 1) 0 [(early, [some 1])] 1 :=
  .direct (n := 1) (ord := []) (.plain early [some 1]) (.inl rfl) rfl ⟨survey.drop 2, rfl⟩ (by decide : 0 < 1) rfl
    (fun e he => by cases List.mem_singleton.1 he; exact attached_iff.2 rfl)

theorem survey_late : Conditioned survey (survey.take 2) 0 [(late, [some 2])] 2 :=
  .direct (n := 1) (ord := []) (.plain late [some 2]) (.inl rfl) rfl ⟨survey.drop 3, rfl⟩ (by decide : 0 < 2) rfl
    (fun e he => by cases List.mem_singleton.1 he; exact attached_iff.2 rfl)

theorem survey_fitsV : FitsV (off surveyC) (early, [some 1]) ∧ FitsV (off surveyC) (late, [some 2]) :=
  ⟨⟨_, rfl, rows_off (by decide), rfl, rfl, rfl⟩, ⟨_, rfl, rows_off (by decide), rfl, rfl, rfl⟩⟩

/-- C64 for `survey`: a divergence of the posterior from the prior at one point, and at both points. -/
example : ∃ r r1 d d1, KlOf survey 1 0 [late] r ∧ KlOf survey 1 0 [early, late] r1 ∧ W2Of survey 1 0 [late] d ∧ W2Of survey 1 0 [early, late] d1 ∧
    0 ≤ r ∧ r ≤ r1 ∧ d ≤ d1 := by
  have g1 := survey_good (fs := [late]) (by simp)
  have g2 := survey_good (fs := [early, late]) (by simp)
  obtain ⟨_, a1⟩ := survey_one (f := late) (.inr rfl) 1 (by simp)
  obtain ⟨_, a0⟩ := survey_one (f := late) (.inr rfl) 0 (by simp)
  obtain ⟨_, b0⟩ := survey_both
  obtain ⟨_, b1⟩ := survey_both'
  obtain ⟨⟨r, h⟩, ⟨d, k⟩⟩ := C64_divergence survey_regular (by simp) g1.1 g1.2 a1 a0
  obtain ⟨⟨r1, h1⟩, ⟨d1, k1⟩⟩ := C64_divergence survey_regular (by simp) g2.1 g2.2 b1 b0
  have hs : [late].Subperm [early, late] := (List.sublist_cons_self _ _).subperm
  exact ⟨r, r1, d, d1, h, h1, k, k1, (C64_kl_zero survey_regular g1.1 h).1, C64_kl survey_regular hs g2.1 h h1, C64_w2 survey_regular hs g2.1 k k1⟩

/-- The prior does not diverge from itself. -/
example : ∃ r d, KlOf survey 0 0 [early, late] r ∧ W2Of survey 0 0 [early, late] d ∧ r = 0 ∧ d = 0 := by
  have g2 := survey_good (fs := [early, late]) (by simp)
  obtain ⟨_, b0⟩ := survey_both
  obtain ⟨⟨r, h⟩, ⟨d, k⟩⟩ := C64_divergence survey_regular (by simp) g2.1 g2.2 b0 b0
  exact ⟨r, d, h, k, (C64_kl_zero survey_regular g2.1 h).2.2 ⟨fun f _ v v1 a b => a.unique b, fun f _ f' _ A A1 a b => a.unique b ▸ .refl _⟩,
    (C64_w2_zero survey_regular g2.1 k).2.2 ⟨fun f _ v v1 a b => a.unique b, fun f _ f' _ A A1 a b => a.unique b ▸ .refl _⟩⟩

/-- The observation at the first point makes the second less uncertain. What it tells is what the second would tell about the first. -/
example : ∃ r r1 r2 r3 r4, EntropyOf survey 0 [early] r ∧ EntropyOf survey 2 [early] r1 ∧ EntropyOf survey 0 [late] r2 ∧ EntropyOf survey 1 [late] r3 ∧
    EntropyOf survey 0 [early, late] r4 ∧ r3 ≤ r2 ∧ r4 = r + r3 ∧ r4 ≤ r + r2 ∧ r - r1 = r2 - r3 := by
  obtain ⟨r, h⟩ := survey_entropy (by simp) (by simp) (survey_one (f := early) (.inl rfl) 0 (by simp))
  obtain ⟨r1, h1⟩ := survey_entropy (by simp) (by simp) (survey_one (f := early) (.inl rfl) 2 (by simp))
  obtain ⟨r2, h2⟩ := survey_entropy (by simp) (by simp) (survey_one (f := late) (.inr rfl) 0 (by simp))
  obtain ⟨r3, h3⟩ := survey_entropy (by simp) (by simp) (survey_one (f := late) (.inr rfl) 1 (by simp))
  obtain ⟨r4, h4⟩ := survey_entropy (by simp) (by simp) survey_both
  have g : Gives survey (survey.take 1) 0 (.exact 0 (.num [[0]]) (eye 1) [1]) 1 := ⟨⟨survey.drop 2, rfl⟩, (by decide : 0 < 1), rfl⟩
  have f1 := (survey_good (fs := [early]) (by simp)).1
  have f2 := (survey_good (fs := [late]) (by simp)).1
  have v1 : ∀ e ∈ [(early, ([some 1] : Vals))], FitsV (off surveyC) e := by simpa using survey_fitsV.1
  have v2 : ∀ e ∈ [(late, ([some 2] : Vals))], FitsV (off surveyC) e := by simpa using survey_fitsV.2
  have a1 : AtAvailable [early] [(early, [some 1])] := .full (G := off surveyC) fun e he => ⟨v1 e he, by cases List.mem_singleton.1 he; rfl⟩
  have a2 : AtAvailable [late] [(late, [some 2])] := .full (G := off surveyC) fun e he => ⟨v2 e he, by cases List.mem_singleton.1 he; rfl⟩
  have at1 : ∀ f ∈ [late], Attached (runOps (survey.take 1) {}) 0 f.p := fun f hf => by cases List.mem_singleton.1 hf; exact attached_iff.2 rfl
  have at2 : ∀ f ∈ [early], Attached (runOps (survey.take 2) {}) 0 f.p := fun f hf => by cases List.mem_singleton.1 hf; exact attached_iff.2 rfl
  exact ⟨r, r1, r2, r3, r4, h, h1, h2, h3, h4, (C64_less survey_regular g f2 at1 h2 h3).1, C64_chain survey_regular survey_tells survey_early v1 a1 f2 at1 h h3 h4,
    (C64_together survey_regular f1 f2 h h2 h4).1, C64_mutual survey_regular survey_tells survey_early survey_late v1 v2 a1 a2 at2 at1 h h1 h2 h3⟩

/-- Entropies do not depend on the order, and the second point adds less to the first one if that is looked at twice. -/
example : ∃ r r1 r2 r3 r4, EntropyOf survey 0 [early] r ∧ EntropyOf survey 0 [early, early] r1 ∧ EntropyOf survey 0 [early, late] r2 ∧
    EntropyOf survey 0 [early, early, late] r3 ∧ EntropyOf survey 0 [late, early] r4 ∧ r3 - r1 ≤ r2 - r ∧ r4 = r2 := by
  obtain ⟨r, h⟩ := survey_entropy (by simp) (by simp) (survey_one (f := early) (.inl rfl) 0 (by simp))
  obtain ⟨r1, h1⟩ := survey_entropy (by simp) (by simp) (⟨_, .many (b := survey.take 6) (ord := [0, 1, 2]) (o := .cross [0, 0] [0, 1, 2]) (o' := .call 0 4)
    rfl rfl ⟨survey.drop 8, rfl⟩⟩ : ∃ g, JointFdd survey 0 [early, early] g)
  obtain ⟨r2, h2⟩ := survey_entropy (by simp) (by simp) survey_both
  obtain ⟨r3, h3⟩ := survey_entropy (by simp) (by simp) survey_three
  obtain ⟨r4, h4⟩ := survey_entropy (by simp) (by simp) (⟨_, .many (b := survey.take 6) (ord := [0, 1, 2]) (o := .cross [0, 0] [0, 1, 2]) (o' := .call 0 4)
    rfl rfl ⟨survey.drop 8, rfl⟩⟩ : ∃ g, JointFdd survey 0 [late, early] g)
  have f1 := (survey_good (fs := [early]) (by simp)).1
  have f2 := (survey_good (fs := [late]) (by simp)).1
  have f3 := (survey_good (fs := [early, late]) (by simp)).1
  exact ⟨r, r1, r2, r3, r4, h, h1, h2, h3, h4, C64_diminishing (fs := [early]) (gs := [early]) (hs := [late]) survey_regular f1 f1 f2 h h1 h2 h3,
    C64_order survey_regular (.swap _ _ _) f3 h4 h2⟩

end Stheno
