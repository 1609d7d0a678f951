import Verif.JitterFns
import Verif.Props.Jitter
import Verif.Props.Normal
import Verif.Props.Density
import Verif.Props.Joint

/-!
# C54: densities and samples with jitter
-/

namespace Stheno

open Matrix Topology MeasureTheory ProbabilityTheory

section
variable {n k : ℕ} {ε : ℝ}

theorem logpdfFullJ_eq (g : Normal n) (x : Fin n → ℝ) : g.logpdfFullJ ε x = (g.jitter ε).logpdfFull x := rfl

theorem jitter_sub (g : Normal n) {is : List (Fin n)} (h : is.Nodup) : (g.jitter ε).sub is = (g.sub is).jitter ε := by
  unfold Normal.jitter Normal.sub
  congr 1
  ext i j
  show g.var (is.get i) (is.get j) + (ε • (1 : Matrix (Fin n) (Fin n) ℝ)) (is.get i) (is.get j) =
    g.var (is.get i) (is.get j) + (ε • (1 : Matrix (Fin is.length) (Fin is.length) ℝ)) i j
  simp only [Matrix.smul_apply, Matrix.one_apply, h.get_inj_iff]

/-- **C54, densities.** Jitter in a log-density is additional noise of variance `ε`, also if data are missing. -/
theorem C54_density (g : Normal n) (x : Fin n → Option ℝ) :
    g.logpdfJ ε x = (⟨g.mean, g.var + ε • 1⟩ : Normal n).logpdf x := by
  show _ = (g.jitter ε).logpdf x
  unfold Normal.logpdfJ Normal.logpdf
  split_ifs
  · rfl
  · show (g.sub _).logpdfFullJ ε _ = ((g.jitter ε).sub _).logpdfFull _
    rw [jitter_sub g ((List.nodup_finRange n).filter _)]
    rfl

/-- **C54, samples.** Jitter in samples is additional noise of variance `ε`. With jitter, samples can be drawn whatever the variance is, also if it is singular. -/
theorem C54_sample {Ω : Type*} [MeasurableSpace Ω] {P : Measure Ω} (g : Normal n) (hg : g.var.PosSemidef) (hε : 0 < ε) (noise : Option ℝ)
    (hs : ∀ s, noise = some s → 0 ≤ s) (meanIsZero : Bool) (hz : meanIsZero = true → g.mean = 0) (z : Ω → Fin k → Fin n → ℝ)
    (hn : ∀ s i, HasLaw (fun ω => z ω s i) (gaussianReal 0 1) P) (hi : iIndepFun (fun (a : Fin k × Fin n) ω => z ω a.1 a.2) P) :
    (∀ s, IsNormal P (fun ω => g.sampleJ ε meanIsZero noise (z ω) s) ⟨g.mean, g.var + (noise.getD 0 + ε) • (1 : Matrix (Fin n) (Fin n) ℝ)⟩) ∧
    iIndepFun (fun s ω => g.sampleJ ε meanIsZero noise (z ω) s) P := by
  have e0 : g.noisyVar noise + ε • 1 = (g.jitter ε).noisyVar noise := by
    cases noise with
    | none => rfl
    | some s =>
      show g.var + diagonal (fun _ => s) + ε • 1 = g.var + ε • 1 + diagonal fun _ => s
      abel
  have e : ∀ ω s, g.sampleJ ε meanIsZero noise (z ω) s = (g.jitter ε).sample chol meanIsZero noise (z ω) s := by
    intro ω s
    unfold Normal.sampleJ Normal.sample
    simp only [e0]
    rfl
  have hp : ((g.jitter ε).noisyVar noise).PosDef := by
    rw [← e0]
    refine (smul_one_posDef hε).posSemidef_add ?_
    cases noise with
    | none => exact hg
    | some s => exact hg.add (PosSemidef.diagonal fun _ => hs s rfl)
  simp only [e]
  have := C44_chol (g.jitter ε) noise hp meanIsZero hz z hn hi
  refine ⟨fun s => ?_, this.2⟩
  have ev : g.var + (noise.getD 0 + ε) • (1 : Matrix (Fin n) (Fin n) ℝ) = (g.jitter ε).var + noise.getD 0 • 1 := by
    show _ = g.var + ε • 1 + _
    rw [add_smul]
    abel
  rw [ev]
  exact this.1 s

end

section
variable {G : Dom} {ops : List Op} {ε : ℝ} {m : MId} {p q : PId} {xs : List Pt} {f : Fdd} {y : Vals} {r : ℝ}

/-- **C54, FDDs.** The mean and the variance of an FDD with jitter are those in the program with additional noise. -/
theorem C54_fdd (hn : ∀ o ∈ ops, o.Natural) {v : List ℝ} {V : Mat} :
    FddNormalJ ε (runOps ops {}) f v V ↔ FddNormal (runOps (renoise (jit ε) ops) {}) f v V := by
  unfold FddNormalJ FddNormal gpMeasure groups
  simp only [C54_jitter_mean hn, C54_jitter_kernel hn, renoise_gps hn]

/-- **C54, log-densities.** The log-density of an FDD with jitter `ε` is the log-density in the program in which all observations have additional noise of
variance `ε`, of the FDD with additional noise of variance `ε`. -/
theorem C54_logpdf (hn : ∀ o ∈ ops, o.Natural) :
    FddLogpdfJ ε (runOps ops {}) f y r ↔ FddLogpdf (runOps (renoise (jit ε) ops) {}) ⟨f.p, f.x, jit ε f.noise⟩ y r := by
  have key : ∀ (v : List ℝ) (V : Mat), asNormal (.col v) (jit ε V) = (asNormal (.col v) V).jitter ε := by
    intro v V
    unfold asNormal Normal.jitter jit
    congr 1
    ext i j
    show (V.e i j + if (i : ℕ) = j then ε else 0) = V.e i j + (ε • (1 : Matrix (Fin V.r) (Fin V.r) ℝ)) i j
    simp only [Matrix.smul_apply, Matrix.one_apply, Fin.ext_iff, smul_eq_mul, mul_ite, mul_one, mul_zero]
  have nd : ∀ (n : ℕ) (P : Fin n → Bool), ((List.finRange n).filter P).Nodup := fun n P => (List.nodup_finRange n).filter _
  constructor
  · rintro ⟨v, V, ⟨m, K, h1, h2, h3, h4⟩, h5, h6, h7, h8, h9⟩
    refine ⟨v, jit ε V, ⟨m, K, ?_, (C54_jitter_mean hn).1 h2, (C54_jitter_kernel hn).1 h3, ?_⟩, h5, h6, h7, ?_, ?_⟩
    · unfold gpMeasure groups; rw [renoise_gps hn]; exact h1
    · show K.add (jit ε f.noise) = _
      rw [jit_add, h4]; rfl
    · rw [key]
      show (((asNormal (.col v) V).jitter ε).sub ((List.finRange V.r).filter fun i => (y.getD i none).isSome)).var.PosDef
      rw [jitter_sub _ (nd _ _)]
      exact h8
    · rw [h9, C54_density, key]; rfl
  · rintro ⟨v, W, ⟨m, K, h1, h2, h3, h4⟩, h5, h6, h7, h8, h9⟩
    replace h4 : (K.add f.noise).map (jit ε) = some W := by rw [← jit_add]; exact h4
    obtain ⟨V, hV, rfl⟩ := Option.map_eq_some_iff.1 h4
    refine ⟨v, V, ⟨m, K, ?_, (C54_jitter_mean hn).2 h2, (C54_jitter_kernel hn).2 h3, hV⟩, h5, h6, h7, ?_, ?_⟩
    · unfold gpMeasure groups at h1; rw [renoise_gps hn] at h1; exact h1
    · rw [key] at h8
      change (((asNormal (.col v) V).jitter ε).sub ((List.finRange V.r).filter fun i => (y.getD i none).isSome)).var.PosDef at h8
      rw [jitter_sub _ (nd _ _)] at h8
      exact h8
    · rw [h9, C54_density, key]; rfl

/-- The variance matrix of values of a process. -/
theorem Regular.kernel_psd (h : Regular G ops) (hp : Attached (runOps ops {}) m p) (hxs : Rows (G p) xs) {A : Mat}
    (hA : KernelCall (runOps ops {}) m p p (.num xs) (.num xs) A) : A.r = xs.length ∧ A.c = xs.length ∧ (A.sq xs.length).PosSemidef := by
  obtain ⟨vs, hF, lv⟩ := h.value hp hxs
  have e := h.kernel_eq hp hp hxs hxs hA hF hF
  refine ⟨e.r.trans lv, e.c.trans lv, ?_⟩
  have g : A.sq vs.length = gram ((reading ops).S m) vs := by
    ext i j
    show A.e i j = _
    rw [e.e i i.2 j j.2]
    simp [covMat, gram]
  rw [← lv, g]
  exact gram_posSemidef _ _ (h.pos m)

theorem asNormal_logpdf {n : ℕ} {v : List ℝ} {V : Mat} (h : V.r = n) :
    (asNormal (.col v) V).logpdf (fun i => y.getD i none) = (⟨fun i => v.getD i 0, V.sq n⟩ : Normal n).logpdf fun i => y.getD i none := by
  subst h; rfl

/-- **C54, log-densities return.** With any positive jitter the log-density of any data of the right length returns, whatever was observed and also if the FDD has no noise. -/
theorem C54_logpdf_returns (h : Tame G ops) (hx : Exact ops) (hs : Steady ops) (hε : 0 < ε) (hm : gpMeasure (runOps ops {}) p = some m)
    (hxs : Rows (G p) xs) {N : Mat} (hr : N.r = xs.length) (hc : N.c = xs.length) (hN : (N.sq xs.length).PosSemidef) (hy : y.length = xs.length) :
    ∃ r, FddLogpdfJ ε (runOps ops {}) ⟨p, .num xs, N⟩ y r := by
  have hp : Attached (runOps ops {}) m p := ((C32_consistent ops).1 m p).2 (List.mem_of_head? hm)
  obtain ⟨⟨v, hv, lv⟩, ⟨K, hK, rK, cK⟩, -⟩ := C54_returns h hx hs hε hp hp hxs hxs
  have hpsd := ((h.jitter hx hs hε).kernel_psd ((renoise_attached h.natural).2 hp) hxs ((C54_jitter_kernel h.natural).1 hK)).2.2
  have hadd : K.add N = some ⟨K.r, K.c, fun i j => K.e i j + N.e i j⟩ := if_pos ⟨rK.trans hr.symm, cK.trans hc.symm⟩
  refine ⟨_, v, _, ⟨m, K, hm, hv, hK, hadd⟩, cK.trans rK.symm, lv.trans rK.symm, hy.trans rK.symm, ?_, rfl⟩
  refine (smul_one_posDef hε).posSemidef_add ?_
  have : (K.sq K.r + N.sq K.r).PosSemidef := by rw [rK]; exact hpsd.add hN
  exact this.submatrix _

/-- Log-densities tend to the limit if means and variances do. -/
theorem logpdfFull_tendsto {ι : Type} {l : Filter ι} {n : ℕ} {g : Normal n} {g' : ι → Normal n} (hg : g.var.PosDef)
    (hm : Filter.Tendsto (fun t => (g' t).mean) l (𝓝 g.mean)) (hv : Filter.Tendsto (fun t => (g' t).var) l (𝓝 g.var)) (x : Fin n → ℝ) :
    Filter.Tendsto (fun t => (g' t).logpdfFull x) l (𝓝 (g.logpdfFull x)) := by
  have hd : Filter.Tendsto (fun t => (g' t).var.det) l (𝓝 g.var.det) := ((continuous_id.matrix_det).tendsto _).comp hv
  have hi := tendsto_inv hv hg.det_pos.ne'
  have hx : Filter.Tendsto (fun t => x - (g' t).mean) l (𝓝 (x - g.mean)) := hm.const_sub x
  have hq : Filter.Tendsto (fun t => (x - (g' t).mean) ⬝ᵥ ((g' t).var⁻¹ *ᵥ (x - (g' t).mean))) l (𝓝 ((x - g.mean) ⬝ᵥ (g.var⁻¹ *ᵥ (x - g.mean)))) := by
    have hx' := tendsto_pi_nhds.1 hx
    have hi' : ∀ i j, Filter.Tendsto (fun t => (g' t).var⁻¹ i j) l (𝓝 (g.var⁻¹ i j)) :=
      fun i j => tendsto_pi_nhds.1 (tendsto_pi_nhds.1 hi i) j
    have hw : ∀ i, Filter.Tendsto (fun t => ((g' t).var⁻¹ *ᵥ (x - (g' t).mean)) i) l (𝓝 ((g.var⁻¹ *ᵥ (x - g.mean)) i)) := fun i => by
      simp only [mulVec, dotProduct]
      exact tendsto_finsetSum _ fun j _ => (hi' i j).mul (hx' j)
    exact tendsto_finsetSum _ fun i _ => (hx' i).mul (hw i)
  exact ((((hd.log hg.det_pos.ne').add_const _).add hq).neg).div_const 2

/-- **C54, the limit of log-densities.** As the jitter goes to zero, log-densities, also of posteriors and if data are missing, go to the log-density without jitter. -/
theorem C54_logpdf_limit (h : Regular G ops) (hu : Unmultiplied ops) (hx : Exact ops) (hxs : Rows (G p) xs) {N : Mat} {r' : ℝ → ℝ}
    (hr : FddLogpdf (runOps ops {}) ⟨p, .num xs, N⟩ y r) (hr' : ∀ ε > 0, FddLogpdfJ ε (runOps ops {}) ⟨p, .num xs, N⟩ y (r' ε)) :
    Filter.Tendsto r' (𝓝[>] 0) (𝓝 r) := by
  obtain ⟨v, V, ⟨m, K, hm, hv, hK, hV⟩, -, -, -, hpd, e⟩ := hr.ret
  simp only at hm hv hK hV
  have hp : Attached (runOps ops {}) m p := ((C32_consistent ops).1 m p).2 (List.mem_of_head? hm)
  obtain ⟨rK, cK, -⟩ := h.kernel_psd hp hxs hK
  have key : ∀ {K N V : Mat}, K.r = xs.length → K.add N = some V → V.r = xs.length ∧ ∀ i j, V.e i j = K.e i j + N.e i j := by
    intro K N V hr hV
    unfold Mat.add at hV
    split_ifs at hV
    cases hV
    exact ⟨hr, fun _ _ => rfl⟩
  obtain ⟨rV, eV⟩ := key rK hV
  have hJ : ∀ ε, ∃ v' K', 0 < ε → MeanCallJ ε (runOps ops {}) m p (.num xs) v' ∧ KernelCallJ ε (runOps ops {}) m p p (.num xs) (.num xs) K' ∧
      r' ε = (⟨fun i => v'.getD i 0, K'.sq xs.length + N.sq xs.length + ε • 1⟩ : Normal xs.length).logpdf fun i => y.getD i none := by
    intro ε
    by_cases hε : 0 < ε
    · obtain ⟨v', V', ⟨m', K', hm', hv', hK', hV'⟩, -, -, -, -, e'⟩ := (hr' ε hε).ret
      simp only at hm' hv' hK' hV'
      rw [hm] at hm'; cases hm'
      have rK' := ((h.toTame.jitter hx (.inl hu) hε).kernel_psd ((renoise_attached h.natural).2 hp) hxs ((C54_jitter_kernel h.natural).1 hK')).1
      obtain ⟨rV', eV'⟩ := key rK' hV'
      refine ⟨v', K', fun _ => ⟨hv', hK', ?_⟩⟩
      rw [e', C54_density]
      have : ∀ (n : ℕ) (h : V'.r = n), (⟨(asNormal (.col v') V').mean, (asNormal (.col v') V').var + ε • 1⟩ : Normal V'.r).logpdf (fun i => y.getD i none) =
          (⟨fun i => v'.getD i 0, V'.sq n + ε • 1⟩ : Normal n).logpdf fun i => y.getD i none := by
        intro n h; subst h; rfl
      rw [this _ rV']
      have : V'.sq xs.length = K'.sq xs.length + N.sq xs.length := by
        ext i j; exact eV' i j
      rw [this]
    · exact ⟨[], K, fun h => (hε h).elim⟩
  choose v' K' hJ using hJ
  obtain ⟨lm, lk⟩ := C54_limit h hu hx hp hp hxs hxs hv (fun ε hε => (hJ ε hε).1) hK fun ε hε => (hJ ε hε).2.1
  have eVs : V.sq xs.length = K.sq xs.length + N.sq xs.length := by ext i j; exact eV i j
  refine Filter.Tendsto.congr' (eventually_mem_nhdsWithin.mono fun ε hε => (hJ ε hε).2.2.symm) ?_
  rw [e, asNormal_logpdf rV, eVs]
  have hpd' : ((⟨fun i => v.getD i 0, K.sq xs.length + N.sq xs.length⟩ : Normal xs.length).sub
      ((List.finRange xs.length).filter fun i => (y.getD i none).isSome)).var.PosDef := by
    rw [← eVs]
    have : ∀ (n : ℕ) (h : V.r = n), ((⟨fun i => v.getD i 0, V.sq n⟩ : Normal n).sub ((List.finRange n).filter fun i => (y.getD i none).isSome)).var.PosDef := by
      intro n h; subst h; exact hpd
    exact this _ rV
  simp only [C36_missing]
  refine logpdfFull_tendsto hpd' ?_ ?_ _
  · exact tendsto_pi_nhds.2 fun i => lm _ (Fin.is_lt _)
  · refine tendsto_pi_nhds.2 fun i => tendsto_pi_nhds.2 fun j => ?_
    have l0 : Filter.Tendsto (fun ε : ℝ => ε) (𝓝[>] 0) (𝓝 0) := Filter.tendsto_id.mono_left nhdsWithin_le_nhds
    have := fun a b : Fin xs.length => ((lk a a.2 b b.2).add_const (N.e a b)).add
      (l0.mul_const ((1 : Matrix (Fin xs.length) (Fin xs.length) ℝ) a b))
    simp only [zero_mul, add_zero] at this
    exact this _ _

/-- In any reading, the log-density of complete data for a process. -/
theorem FddLogpdf.value {V : Type} [AddCommGroup V] [Module ℝ V] {I : Interp V} {y : List ℝ} {zs : List V} {N' : Mat} (h : I.Reads ops)
    (hr : FddLogpdf (runOps ops {}) f (y.map some) r) (hm : gpMeasure (runOps ops {}) f.p = some m) (hF : I.F m f.p f.x = some zs)
    (hy : y.length = zs.length) (rN : f.noise.r = zs.length) (cN : f.noise.c = zs.length) (hN : f.noise.Eqv N') :
    r = (obsNormal (I.S m) zs N').logpdfFull (fun i => y.getD i 0) ∧ (noisyGram (I.S m) zs N').PosDef := by
  obtain ⟨v, W, ⟨m', K, hm', hv, hK, hW⟩, h1, h2, h3, h4, rfl⟩ := hr.ret
  rw [hm] at hm'; cases hm'
  have hpos : positions ((y.map some).map Option.isSome) = List.range zs.length := by
    rw [positions_all (by simp)]; simp [hy]
  have hf : (y.map some).filterMap id = y := by simp
  have := logpdf_value h hv hK hW h1 h2 h3 h4 (x' := f.x) (zs := zs) (N' := N') (.inl ⟨rfl, by rw [hpos]; simp [hy]⟩) hF
    (by rw [hf]; exact hy) (by
      rw [hpos]
      refine Mat.Eqv.trans (Mat.Eqv.symm ?_) hN
      have e := sub2_range f.noise
      rw [rN, cN] at e
      exact e)
  rw [hf] at this
  exact this

/-- With more noise, a program makes the same processes. -/
theorem Runs.renoise {b : List Op} {o : Op} {i : PId} (hr : Runs ops b o i) (φ : Mat → Mat) (hn : ∀ o ∈ ops, o.Natural) (ho : o.renoise φ = o) :
    Runs (Stheno.renoise φ ops) (Stheno.renoise φ b) o i := by
  obtain ⟨⟨after, e⟩, h2, m', h3⟩ := hr
  have hnb : ∀ o' ∈ b ++ [o], o'.Natural := fun o' ho' => hn o' (by
    rw [e]
    rcases List.mem_append.1 ho' with h | h
    · exact List.mem_append_left _ h
    · rw [List.mem_singleton.1 h]; simp)
  refine ⟨⟨Stheno.renoise φ after, by rw [e]; simp [Stheno.renoise, ho]⟩, ?_, m', ?_⟩
  · rw [renoise_gps fun o' ho' => hnb o' (List.mem_append_left _ ho')]; exact h2
  · have : Stheno.renoise φ b ++ [o] = Stheno.renoise φ (b ++ [o]) := by simp [Stheno.renoise, ho]
    rw [this]
    exact (renoise_attached hnb).2 h3

/-- **C54, joint log-densities return.** With any positive jitter, so does the log-density of several FDDs together. -/
theorem C54_joint_returns (h : Tame G ops) (hx : Exact ops) (hs : Steady ops) (hε : 0 < ε) {b : List Op} {c : PId} {qs : List PId} {ord : List MId} {z : Input}
    {N : Mat} (hc : Runs ops b (.cross qs ord) c) (hat : Attached (runOps (b ++ [.cross qs ord]) {}) m c) (mc : gpMeasure (runOps ops {}) c = some m)
    (hz : TupOf G qs z) (rN : N.r = numElements z) (cN : N.c = numElements z) (hN : (N.sq N.r).PosSemidef) (hy : y.length = numElements z) :
    ∃ r, FddLogpdfJ ε (runOps ops {}) ⟨c, z, N⟩ y r := by
  have hn := h.natural
  have hreg := h.jitter hx hs hε
  obtain ⟨after, e⟩ := hc.split
  have hat' : Attached (runOps (Stheno.renoise (jit ε) b ++ [.cross qs ord]) {}) m c := by
    have : Stheno.renoise (jit ε) b ++ [.cross qs ord] = Stheno.renoise (jit ε) (b ++ [.cross qs ord]) := by simp [Stheno.renoise, Op.renoise]
    rw [this]
    refine (renoise_attached fun o ho => hn o ?_).2 hat
    rw [e]
    rcases List.mem_append.1 ho with h | h
    · exact List.mem_append_left _ h
    · rw [List.mem_singleton.1 h]; simp
  obtain ⟨⟨v, vs, hv, hF, ev, lv⟩, ⟨A, vs', hA, hF', eA⟩, -⟩ := hreg.cross_calls ((hc.renoise (jit ε) hn rfl).of (d := .cross qs) rfl) hat' hz
  rw [hF] at hF'; cases hF'
  have hadd : A.add (jit ε N) = some ⟨A.r, A.c, fun i j => A.e i j + (jit ε N).e i j⟩ :=
    if_pos ⟨eA.r.trans (lv.trans rN.symm), eA.c.trans (lv.trans cN.symm)⟩
  obtain ⟨r, hr⟩ := fddLogpdf_of (w := runOps (renoise (jit ε) ops) {}) (f := ⟨c, z, jit ε N⟩) (y := y) (v := v) ⟨m, A, by
      unfold gpMeasure groups at mc ⊢; rw [renoise_gps hn]; exact mc, hv, hA, hadd⟩ hadd eA (hreg.pos m) (by
      show ((jit ε N).sq N.r).PosDef
      rw [jit_sq]
      exact (smul_one_posDef hε).posSemidef_add hN) (by rw [ev, List.length_map]; exact eA.r.symm) (hy.trans (lv.symm.trans eA.r.symm))
  exact ⟨r, (C54_logpdf hn).2 hr⟩

/-- **C54, the chain rule with jitter.** The log-density of two FDDs is, exactly and with any jitter, that of the first plus that of the second in the posterior given
the first: the jitter in the joint density is the same as the jitter in the posterior and in the two densities. -/
theorem C54_chain (h : Tame G ops) (hx : Exact ops) (hs : Steady ops) (hε : 0 < ε) {b bc bq : List Op} {m1 : MId} {c q1 : PId} {N N2 : Mat} {y1 y2 : List ℝ}
    {ys : List Pt} {ord : List MId} {r1 r2 rj : ℝ} (g : Gives ops b m (.exact p (.num xs) N y1) m1) (hp : Attached (runOps b {}) m p)
    (hq : Attached (runOps b {}) m q) (hxs : Rows (G p) xs) (hys : Rows (G q) ys)
    (rN : N.r = xs.length) (cN : N.c = xs.length) (ly1 : y1.length = xs.length)
    (rN2 : N2.r = ys.length) (cN2 : N2.c = ys.length) (ly2 : y2.length = ys.length)
    (hc : Runs ops bc (.cross [p, q] ord) c) (hcopy : Runs ops bq (.call m1 q) q1)
    (mp : gpMeasure (runOps ops {}) p = some m) (mc : gpMeasure (runOps ops {}) c = some m) (mq : gpMeasure (runOps ops {}) q1 = some m1)
    (k1 : FddLogpdfJ ε (runOps ops {}) ⟨p, .num xs, N⟩ (y1.map some) r1)
    (k2 : FddLogpdfJ ε (runOps ops {}) ⟨q1, .num ys, N2⟩ (y2.map some) r2)
    (kj : FddLogpdfJ ε (runOps ops {}) ⟨c, .tup [.fdd p (.num xs), .fdd q (.num ys)], N.dsum N2⟩ ((y1 ++ y2).map some) rj) : rj = r1 + r2 := by
  have hn := h.natural
  have hreg := h.jitter hx hs hε
  have att : ∀ {p m}, gpMeasure (runOps ops {}) p = some m → Attached (runOps (renoise (jit ε) ops) {}) m p := fun hm =>
    (renoise_attached hn).2 (((C32_consistent ops).1 _ _).2 (List.mem_of_head? hm))
  have msr : ∀ {p m}, gpMeasure (runOps ops {}) p = some m → gpMeasure (runOps (renoise (jit ε) ops) {}) p = some m := fun hm => by
    unfold gpMeasure groups at hm ⊢; rw [renoise_gps hn]; exact hm
  obtain ⟨after, e⟩ := g.split
  have hnb : ∀ o ∈ b, o.Natural := fun o ho => hn o (by rw [e]; exact List.mem_append_left _ ho)
  have g' : Gives (renoise (jit ε) ops) (renoise (jit ε) b) m (.exact p (.num xs) (jit ε N) y1) m1 :=
    ⟨⟨renoise (jit ε) after, by rw [e]; simp [renoise, Op.renoise, Obs.renoise]⟩, (renoise_has hnb).2 g.has, by rw [renoise_ms hnb]; exact g.id⟩
  have hc' := hc.renoise (jit ε) hn rfl
  have hcopy' := hcopy.renoise (jit ε) hn rfl
  obtain ⟨zss, hb⟩ := hreg.blocks (m := m) (l := [(⟨p, .num xs, jit ε N⟩, y1), (⟨q, .num ys, jit ε N2⟩, y2)])
    (by
      intro e he
      simp only [List.mem_cons, List.not_mem_nil, or_false] at he
      rcases he with rfl | rfl
      · exact ⟨xs, rfl, hxs, rN, cN, ly1⟩
      · exact ⟨ys, rfl, hys, rN2, cN2, ly2⟩)
    (by
      intro e he
      simp only [List.mem_cons, List.not_mem_nil, or_false] at he
      have pre : b <+: ops := by rw [‹ops = _›]; exact List.prefix_append _ _
      rcases he with rfl | rfl
      · exact (renoise_attached hn).2 (attached_pre hp pre)
      · exact (renoise_attached hn).2 (attached_pre hq pre))
  have ho := ObsOf.joint (l := [(⟨p, .num xs, jit ε N⟩, y1), (⟨q, .num ys, jit ε N2⟩, y2)]) hc' (att mc) (by simp)
  obtain ⟨_, _, _, _, e4, hFj, -, -, -, -, -⟩ := ho.observes hreg.reads hb
  cases e4
  obtain ⟨zs1, _, hb1, hb', rfl⟩ := List.forall₂_cons_left_iff.1 hb
  obtain ⟨zs2, _, hb2, hb'', rfl⟩ := List.forall₂_cons_left_iff.1 hb'
  cases List.forall₂_nil_left_iff.1 hb''
  simp only [List.map_cons, List.map_nil, List.flatten_cons, List.flatten_nil, List.append_nil] at hFj
  simp only at hb1 hb2
  have hF2 : (reading (renoise (jit ε) ops)).F m1 q1 (.num ys) = some zs2 := by
    rw [C33_reading hreg.reads hcopy' (att mq), (g'.law hreg.reads).1 q ((renoise_attached hnb).2 hq)]
    exact hb2.1
  obtain ⟨u1, p1⟩ := g'.blocks_any hreg.reads hreg.firm (C := G) (l := [(⟨p, .num xs, jit ε N⟩, y1)]) (zss := [zs1]) (.single _ _) (.cons hb1 .nil)
    (by
      intro e he
      rw [List.mem_singleton.1 he]
      exact ⟨xs, rfl, hxs, rN, cN, ly1⟩)
  have fl : [zs1].flatten = zs1 := by simp
  rw [fl] at u1 p1
  simp only [List.map_cons, List.map_nil, List.flatMap_cons, List.flatMap_nil, List.append_nil] at u1 p1
  obtain ⟨v1, -⟩ := ((C54_logpdf hn).1 k1).value hreg.reads (msr mp) hb1.1 hb1.2.2.2 hb1.2.1 hb1.2.2.1 (N' := Mat.blockDiag [jit ε N])
    ⟨rfl, rfl, fun i hi j hj => (blockDiag_one (jit ε N) i j hi hj).symm⟩
  obtain ⟨v2, -⟩ := ((C54_logpdf hn).1 k2).value hreg.reads (msr mq) hF2 hb2.2.2.2 hb2.2.1 hb2.2.2.1 (.refl _)
  obtain ⟨vj, pj⟩ := ((C54_logpdf hn).1 kj).value hreg.reads (msr mc) hFj (N' := (Mat.blockDiag [jit ε N]).dsum (jit ε N2))
    (by rw [List.length_append, List.length_append, hb1.2.2.2, hb2.2.2.2])
    (by rw [List.length_append, ← hb1.2.1, ← hb2.2.1]; rfl)
    (by rw [List.length_append, ← hb1.2.2.1, ← hb2.2.2.1]; rfl)
    ⟨rfl, rfl, fun i hi j hj => by
      have hsq : N.c = N.r := cN.trans rN.symm
      simp only [jit, Mat.blockDiag, Mat.dsum]
      simp only [hsq, add_zero]
      by_cases h1 : i < N.r <;> by_cases h2 : j < N.r <;> simp only [h1, h2, if_true, if_false]
      · rw [if_neg (show i ≠ j by omega), add_zero]
      · rw [if_neg (show i ≠ j by omega), add_zero]
      · congr 1
        exact if_congr (by omega) rfl rfl⟩
  rw [v1, v2, vj]
  exact u1.chain p1 pj hb1.2.2.2

/-- Tame programs can be extended by operations that make processes. -/
theorem Tame.extend (h : Tame G ops) {o : Op} (he : o.Elem) (hc : ∀ m obs, o ≠ .condition m obs)
    (hd : ∀ m, ∀ e ∈ o.written (runOps ops {}).gps.length m, Live G e.1 → e.2.Total G (G e.1))
    (hs : ∀ p d m, o = .diff p d → Attached (runOps ops {}) m p → SmoothOn ((reading ops).F m p) d (G (runOps ops {}).gps.length)) :
    Tame G (ops ++ [o]) := by
  refine ⟨fun o' ho' => ?_, fun before o' after e => ?_, fun before m obs after e => ?_, fun m obs ho => ?_, h.smooth_snoc he hs⟩
  · rcases List.mem_append.1 ho' with h1 | h1
    · exact h.elem o' h1
    · rw [List.mem_singleton.1 h1]; exact he
  · rcases snoc_split e with ⟨c', e', _⟩ | ⟨rfl, rfl, _⟩
    · exact h.defs before o' c' e'
    · exact hd
  · rcases snoc_split e with ⟨c', e', _⟩ | ⟨_, e', _⟩
    · exact h.obs before m obs c' e'
    · exact (hc m obs e'.symm).elim
  · rcases List.mem_append.1 ho with h1 | h1
    · exact h.noise m obs h1
    · exact (hc m obs (List.mem_singleton.1 h1).symm).elim

end

/-! ## Examples -/

/-- A variable that is known exactly, and a missing value. -/
example (x : ℝ) : (⟨fun _ => 0, 0⟩ : Normal 2).logpdfJ (1 / 1000000) ![some x, none] =
    (⟨fun _ => 0, 0 + (1 / 1000000 : ℝ) • 1⟩ : Normal 2).logpdf ![some x, none] :=
  C54_density _ _

/-- A variable that is known exactly can be sampled with jitter. -/
example {Ω : Type} [MeasurableSpace Ω] {P : Measure Ω} (z : Ω → Fin 3 → Fin 2 → ℝ) (hn : ∀ s i, HasLaw (fun ω => z ω s i) (gaussianReal 0 1) P)
    (hi : iIndepFun (fun (a : Fin 3 × Fin 2) ω => z ω a.1 a.2) P) (s : Fin 3) :
    IsNormal P (fun ω => (⟨fun _ => 7, 0⟩ : Normal 2).sampleJ (1 / 1000000) false none (z ω) s) ⟨fun _ => 7, 0 + ((0 : ℝ) + 1 / 1000000) • 1⟩ :=
  (C54_sample _ PosSemidef.zero (by norm_num) none (fun _ h => by cases h) false (fun h => by cases h) z hn hi).1 s

/-- `p = GP(kernel)`, the posterior given the value of `p` at the same input twice and without noise, `p` in the posterior, and `cross(p, p)`. Without jitter the
posterior cannot be used. -/
noncomputable def twiceThen : List Op := twice ++ [.call 1 0] ++ [.cross [0, 0] [0, 1]]

/-- Cross processes are not called at numbers. -/
def singleOuts : Dom := fun p _ => p ≠ 2

theorem twiceThen_tame : Tame singleOuts twiceThen := by
  have h0 : Solid singleOuts [.gp .zero (.prim fun _ _ => 1) none none] := by
    refine C46_extend (o := .gp .zero (.prim fun _ _ => 1) none none) .nil ⟨trivial, trivial, psd_const zero_le_one⟩
      (fun _ _ h => by cases h) (fun m e he _ => ?_) fun _ _ _ h => by cases h
    simp only [Op.written, List.mem_singleton] at he
    subst he
    exact ⟨trivial, trivial⟩
  have h1 : Tame singleOuts twice := h0.tame.condition (m := 0) (p := 0) (attached_iff.2 (by decide +kernel)) (by simp [Rows, singleOuts]) rfl rfl rfl
    (by convert PosSemidef.zero using 1; rfl)
  have h2 : Tame singleOuts (twice ++ [.call 1 0]) := by
    refine h1.extend (o := .call 1 0) trivial (fun _ _ h => by cases h) (fun m e he _ => ?_) fun _ _ _ h => by cases h
    simp only [Op.written, List.mem_singleton] at he
    subst he
    exact fun x _ => by simp [singleOuts]
  refine h2.extend (o := .cross [0, 0] [0, 1]) (by simp [Op.Elem]) (fun _ _ h => by cases h) (fun m e he hl => ?_) fun _ _ _ h => by cases h
  simp only [Op.written, List.mem_singleton] at he
  subst he
  obtain ⟨_, h⟩ := hl
  exact (h rfl).elim

theorem twiceThen_exact : Exact twiceThen := by
  intro m pu p o h
  simp [twiceThen, twice] at h

theorem twiceThen_steady : Steady twiceThen := by
  refine .inl fun p q ord h => ?_
  simp [twiceThen, twice] at h

/-- With any jitter log-densities in the posterior return, also without noise and with the same input twice. -/
example : ∃ r, FddLogpdfJ (1 / 1000000) (runOps twiceThen {}) ⟨1, .num [[1], [1]], ⟨2, 2, fun _ _ => 0⟩⟩ [some 3, none] r :=
  C54_logpdf_returns (m := 1) twiceThen_tame twiceThen_exact twiceThen_steady (by norm_num) rfl (by simp [Rows, singleOuts]) rfl rfl
    (by convert PosSemidef.zero using 1; rfl) rfl

example {v : List ℝ} {V : Mat} : FddNormalJ 1 (runOps twiceThen {}) ⟨1, .num [[1]], ⟨1, 1, fun _ _ => 0⟩⟩ v V ↔
    FddNormal (runOps (renoise (jit 1) twiceThen) {}) ⟨1, .num [[1]], ⟨1, 1, fun _ _ => 0⟩⟩ v V :=
  C54_fdd twiceThen_tame.natural

example {r : ℝ} : FddLogpdfJ 1 (runOps twiceThen {}) ⟨1, .num [[1]], ⟨1, 1, fun _ _ => 0⟩⟩ [some 3] r ↔
    FddLogpdf (runOps (renoise (jit 1) twiceThen) {}) ⟨1, .num [[1]], jit 1 ⟨1, 1, fun _ _ => 0⟩⟩ [some 3] r :=
  C54_logpdf twiceThen_tame.natural

/-- The density of two equal observations and a further observation, all without noise. -/
example : ∃ r1 r2 rj, FddLogpdfJ (1 / 1000000) (runOps twiceThen {}) ⟨0, .num [[0], [0]], ⟨2, 2, fun _ _ => 0⟩⟩ [some 1, some 1] r1 ∧
    FddLogpdfJ (1 / 1000000) (runOps twiceThen {}) ⟨1, .num [[5]], ⟨1, 1, fun _ _ => 0⟩⟩ [some 2] r2 ∧
    FddLogpdfJ (1 / 1000000) (runOps twiceThen {}) ⟨2, .tup [.fdd 0 (.num [[0], [0]]), .fdd 0 (.num [[5]])],
      Mat.dsum ⟨2, 2, fun _ _ => 0⟩ ⟨1, 1, fun _ _ => 0⟩⟩ [some 1, some 1, some 2] rj ∧ rj = r1 + r2 := by
  have hε : (0 : ℝ) < 1 / 1000000 := by norm_num
  obtain ⟨r1, k1⟩ := C54_logpdf_returns (m := 0) (p := 0) (xs := [[0], [0]]) (y := [some 1, some 1]) (N := ⟨2, 2, fun _ _ => 0⟩) twiceThen_tame twiceThen_exact
    twiceThen_steady hε rfl (by simp [Rows, singleOuts]) rfl rfl (by convert PosSemidef.zero using 1; rfl) rfl
  obtain ⟨r2, k2⟩ := C54_logpdf_returns (m := 1) (p := 1) (xs := [[5]]) (y := [some 2]) (N := ⟨1, 1, fun _ _ => 0⟩) twiceThen_tame twiceThen_exact
    twiceThen_steady hε rfl (by simp [Rows, singleOuts]) rfl rfl (by convert PosSemidef.zero using 1; rfl) rfl
  have hc : Runs twiceThen (twice ++ [.call 1 0]) (.cross [0, 0] [0, 1]) 2 := ⟨⟨[], by simp [twiceThen]⟩, rfl, 0, attached_iff.2 (by decide +kernel)⟩
  obtain ⟨rj, kj⟩ := C54_joint_returns (m := 0) (z := .tup [.fdd 0 (.num [[0], [0]]), .fdd 0 (.num [[5]])]) (y := [some 1, some 1, some 2])
    (N := Mat.dsum ⟨2, 2, fun _ _ => 0⟩ ⟨1, 1, fun _ _ => 0⟩) twiceThen_tame twiceThen_exact twiceThen_steady hε hc (attached_iff.2 (by decide +kernel)) rfl
    ⟨_, by simp, rfl, fun a ha => by
      simp only [List.mem_cons, List.not_mem_nil, or_false] at ha
      rcases ha with rfl | rfl
      · exact ⟨0, by simp, _, rfl, by simp [Rows, singleOuts]⟩
      · exact ⟨0, by simp, _, rfl, by simp [Rows, singleOuts]⟩⟩ rfl rfl (by convert PosSemidef.zero using 1; ext i j; simp [Mat.sq, Mat.dsum]) rfl
  refine ⟨r1, r2, rj, k1, k2, kj, ?_⟩
  exact C54_chain (p := 0) (q := 0) (m := 0) (m1 := 1) (q1 := 1) (b := [.gp .zero (.prim fun _ _ => 1) none none]) (bq := twice) (y1 := [1, 1]) (y2 := [2]) twiceThen_tame twiceThen_exact
    twiceThen_steady hε ⟨⟨_, rfl⟩, Nat.zero_lt_one, rfl⟩ (attached_iff.2 (by decide +kernel)) (attached_iff.2 (by decide +kernel)) (by simp [Rows, singleOuts])
    (by simp [Rows, singleOuts]) rfl rfl rfl rfl rfl rfl hc ⟨⟨[.cross [0, 0] [0, 1]], by simp [twiceThen]⟩, rfl, 1, attached_iff.2 (by decide +kernel)⟩ rfl rfl rfl k1 k2 kj

/-- The process in the posterior given one noisy observation. -/
noncomputable def oneLookThen : List Op := oneLook ++ [.call 1 0]

theorem oneLookThen_regular : Regular (fun _ _ => True) oneLookThen := by
  have h : Solid (fun _ _ => True) oneLook := C46_condition (m := 0) (p := 0) flat_solid (attached_iff.2 (by decide +kernel)) (.one trivial) rfl rfl rfl
    (by
      show ((⟨1, 1, fun _ _ => 1⟩ : Mat).sq 1).PosDef
      rw [single_sq]
      exact smul_one_posDef one_pos)
  refine (C46_extend (o := .call 1 0) h trivial (fun _ _ h => by cases h) (fun m e he _ => ?_) fun _ _ _ h => by cases h).regular
  simp only [Op.written, List.mem_singleton] at he
  subst he
  exact fun _ _ => trivial

/-- Log-densities in the posterior go to the one without jitter. -/
example : ∃ (r : ℝ) (r' : ℝ → ℝ), FddLogpdf (runOps oneLookThen {}) ⟨1, .num [[1]], ⟨1, 1, fun _ _ => 2⟩⟩ [some 3] r ∧
    (∀ ε > 0, FddLogpdfJ ε (runOps oneLookThen {}) ⟨1, .num [[1]], ⟨1, 1, fun _ _ => 2⟩⟩ [some 3] (r' ε)) ∧ Filter.Tendsto r' (𝓝[>] 0) (𝓝 r) := by
  have hx : Exact oneLookThen := by
    intro m pu p o h
    simp [oneLookThen, oneLook] at h
  have hu : Unmultiplied oneLookThen := by
    intro p q ord h
    simp [oneLookThen, oneLook] at h
  have hp : Attached (runOps oneLookThen {}) 1 1 := attached_iff.2 (by decide +kernel)
  have hN : ((⟨1, 1, fun _ _ => 2⟩ : Mat).sq 1).PosDef := by
    rw [single_sq]
    exact smul_one_posDef two_pos
  obtain ⟨v, hv, lv⟩ := oneLookThen_regular.mean hp (xs := [[1]]) (.one trivial)
  obtain ⟨A, hA, rA, cA⟩ := oneLookThen_regular.kernel hp hp (xs := [[1]]) (ys := [[1]]) (.one trivial) (.one trivial)
  obtain ⟨zs, hF, lz⟩ := oneLookThen_regular.value hp (xs := [[1]]) (.one trivial)
  have hadd : A.add ⟨1, 1, fun _ _ => 2⟩ = some ⟨A.r, A.c, fun i j => A.e i j + 2⟩ := if_pos ⟨rA, cA⟩
  obtain ⟨r, hr⟩ := fddLogpdf_of (w := runOps oneLookThen {}) (f := ⟨1, .num [[1]], ⟨1, 1, fun _ _ => 2⟩⟩) (y := [some 3]) ⟨1, A, rfl, hv, hA, hadd⟩ hadd
    (oneLookThen_regular.kernel_eq hp hp (.one trivial) (.one trivial) hA hF hF) (oneLookThen_regular.pos 1) hN (lv.trans rA.symm) rA.symm
  have hJ : ∀ ε : ℝ, ∃ r', 0 < ε → FddLogpdfJ ε (runOps oneLookThen {}) ⟨1, .num [[1]], ⟨1, 1, fun _ _ => 2⟩⟩ [some 3] r' := fun ε => by
    by_cases hε : 0 < ε
    · obtain ⟨r', h⟩ := C54_logpdf_returns (y := [some 3]) oneLookThen_regular.toTame hx (.inl hu) hε (p := 1) (m := 1) rfl (xs := [[1]]) (.one trivial) rfl rfl
        hN.posSemidef rfl
      exact ⟨r', fun _ => h⟩
    · exact ⟨0, fun h => (hε h).elim⟩
  choose r' hr' using hJ
  exact ⟨r, r', hr, hr', C54_logpdf_limit oneLookThen_regular hu hx (.one trivial) hr hr'⟩

end Stheno
