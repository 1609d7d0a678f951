import Mathlib.Topology.Order.OrderClosed
import Verif.MoreNoise
import Verif.Props.Sure

/-!
# C54: jitter and more noise

The package `matrix` adds a small number to the diagonal of a dense matrix before it takes its Cholesky factor. `C54_jitter`: in posteriors
with exact observations this is the same as additional independent noise. So all theorems about regular programs hold with jitter, for the
program with this noise; with jitter all calls return (`C54_returns`), even where there is no noise at all; jitter, and any additional noise, never makes
posterior variances smaller (`C54_more_noise`, `C54_more_jitter`); and results converge to the results without jitter as the jitter goes to zero
(`C54_limit`).
-/

namespace Stheno

open Matrix Topology

section
variable {G : Dom} {ops : List Op} {ε ε' : ℝ} {m : MId} {p q : PId} {x y : Input} {xs ys : List Pt}

/-! ## Jitter is noise -/

/-- **C54, means.** A call of a mean with jitter `ε` is the call in the program with additional noise of variance `ε`. -/
theorem C54_jitter_mean (hn : ∀ o ∈ ops, o.Natural) {v : List ℝ} :
    MeanCallJ ε (runOps ops {}) m p x v ↔ MeanCall (runOps (renoise (jit ε) ops) {}) m p x v := by
  have em : meanAt (runOps (renoise (jit ε) ops) {}) = fun m p => (meanAt (runOps ops {}) m p).map (MExpr.renoise (jit ε)) := by
    funext m p; exact renoise_meanAt hn p
  have ek : kernelAt (runOps (renoise (jit ε) ops) {}) = fun m p q => (kernelAt (runOps ops {}) m p q).map (KExpr.renoise (jit ε)) := by
    funext m p q; exact renoise_kernelAt hn p q
  unfold MeanCallJ MeanCall
  rw [em, ek]
  constructor
  · rintro ⟨a, n, ha, hv⟩
    exact ⟨_, n, by simp only [ha]; rfl, ((evJ_agree n).M a x).trans hv⟩
  · rintro ⟨a', n, ha, hv⟩
    obtain ⟨a, h1, rfl⟩ := Option.map_eq_some_iff.1 ha
    exact ⟨a, n, h1, ((evJ_agree n).M a x).symm.trans hv⟩

/-- **C54, kernels.** -/
theorem C54_jitter_kernel (hn : ∀ o ∈ ops, o.Natural) {A : Mat} :
    KernelCallJ ε (runOps ops {}) m p q x y A ↔ KernelCall (runOps (renoise (jit ε) ops) {}) m p q x y A := by
  have em : meanAt (runOps (renoise (jit ε) ops) {}) = fun m p => (meanAt (runOps ops {}) m p).map (MExpr.renoise (jit ε)) := by
    funext m p; exact renoise_meanAt hn p
  have ek : kernelAt (runOps (renoise (jit ε) ops) {}) = fun m p q => (kernelAt (runOps ops {}) m p q).map (KExpr.renoise (jit ε)) := by
    funext m p q; exact renoise_kernelAt hn p q
  unfold KernelCallJ KernelCall
  rw [em, ek]
  constructor
  · rintro ⟨a, n, ha, hv⟩
    exact ⟨_, n, by simp only [ha]; rfl, ((evJ_agree n).K a x y).trans hv⟩
  · rintro ⟨a', n, ha, hv⟩
    obtain ⟨a, h1, rfl⟩ := Option.map_eq_some_iff.1 ha
    exact ⟨a, n, h1, ((evJ_agree n).K a x y).symm.trans hv⟩

/-- **C54, `elwise`.** -/
theorem C54_jitter_elwise (hn : ∀ o ∈ ops, o.Natural) {u : List ℝ} :
    ElwiseCallJ ε (runOps ops {}) m p q x y u ↔ ElwiseCall (runOps (renoise (jit ε) ops) {}) m p q x y u := by
  have em : meanAt (runOps (renoise (jit ε) ops) {}) = fun m p => (meanAt (runOps ops {}) m p).map (MExpr.renoise (jit ε)) := by
    funext m p; exact renoise_meanAt hn p
  have ek : kernelAt (runOps (renoise (jit ε) ops) {}) = fun m p q => (kernelAt (runOps ops {}) m p q).map (KExpr.renoise (jit ε)) := by
    funext m p q; exact renoise_kernelAt hn p q
  unfold ElwiseCallJ ElwiseCall
  rw [em, ek]
  constructor
  · rintro ⟨a, n, ha, hv⟩
    exact ⟨_, n, by simp only [ha]; rfl, ((evJ_agree n).D a x y).trans hv⟩
  · rintro ⟨a', n, ha, hv⟩
    obtain ⟨a, h1, rfl⟩ := Option.map_eq_some_iff.1 ha
    exact ⟨a, n, h1, ((evJ_agree n).D a x y).symm.trans hv⟩

/-! ## Jitter as a matrix -/

theorem jit_sq (ε : ℝ) (N : Mat) (n : ℕ) : (jit ε N).sq n = N.sq n + ε • (1 : Matrix (Fin n) (Fin n) ℝ) := by
  ext i j
  simp only [Mat.sq, jit, Matrix.add_apply, Matrix.smul_apply, Matrix.one_apply, smul_eq_mul, Fin.ext_iff]
  split <;> simp

theorem jit_keepsSize (ε : ℝ) : KeepsSize (jit ε) := ⟨fun _ => ⟨rfl, rfl⟩, fun _ => rfl⟩

theorem jit_zero (N : Mat) : jit 0 N = N := by
  unfold jit
  simp

theorem renoise_zero (ops : List Op) : renoise (jit 0) ops = ops := by
  unfold renoise
  conv_rhs => rw [← List.map_id ops]
  refine List.map_congr_left fun o _ => ?_
  cases o with
  | condition m obs =>
    cases obs with
    | exact p x N y => simp only [Op.renoise, Obs.renoise, jit_zero, id]
    | pseudo => rfl
  | _ => rfl

theorem smul_one_posSemidef {n : ℕ} (h : 0 ≤ ε) : (ε • (1 : Matrix (Fin n) (Fin n) ℝ)).PosSemidef := PosSemidef.one.smul h

theorem smul_one_posDef {n : ℕ} (h : 0 < ε) : (ε • (1 : Matrix (Fin n) (Fin n) ℝ)).PosDef := PosDef.one.smul h

theorem jit_psd (h : Tame G ops) (hε : 0 ≤ ε) : ∀ m obs, .condition m obs ∈ ops → (obs.renoise (jit ε)).NoisePSD := by
  intro m obs ho
  have := h.noise m obs ho
  cases obs with
  | exact p x N y =>
    show ((jit ε N).sq (numElements x)).PosSemidef
    rw [jit_sq]
    exact PosSemidef.add this (smul_one_posSemidef hε)
  | pseudo => exact this

/-- Programs in which nothing is differentiated. -/
theorem smooth_of_no_diff {φ : Mat → Mat} (h : ∀ p d, .diff p d ∉ ops) : (specOps (renoise φ ops) {}).Smooth G := by
  intro m a es r p d es' ha e
  have := defs_from (fun e => ∀ p d, e.2 ≠ .diff p d) (renoise φ ops) (fun before o after e m' c hc p d hd => ?_) m a ha (r, .diff p d) (by rw [e]; simp) p d
  · exact (this rfl).elim
  · obtain ⟨b, o', a', e', -, rfl, -⟩ := renoise_split e
    have hmem : o' ∈ ops := by rw [e']; simp
    rw [written_renoise] at hc
    cases o' with
    | diff => exact h _ _ hmem
    | mul p q ord =>
      simp only [Op.written, List.mem_cons, List.not_mem_nil, or_false] at hc
      rcases hc with rfl | rfl | rfl | rfl | rfl <;> cases hd
    | newMeasure | newGP | condition | getM | getK | name | gpName | enter | exit => exact absurd hc List.not_mem_nil
    | _ => cases List.mem_singleton.1 hc; cases hd

/-- What is differentiated does not depend on the noise. -/
def Steady (ops : List Op) : Prop := Unmultiplied ops ∨ ∀ p d, .diff p d ∉ ops

/-- With jitter, programs are regular, also without any noise. -/
theorem Tame.jitter (h : Tame G ops) (hx : Exact ops) (hs : Steady ops) (hε : 0 < ε) : Regular G (Stheno.renoise (jit ε) ops) := by
  refine .of_noisy (h.renoise (jit_keepsSize ε) (jit_psd h hε.le) (hs.elim (smooth_renoise h) smooth_of_no_diff)) ?_ (.of_exact ?_)
  · intro m obs ho
    obtain ⟨o', ho', e⟩ := List.mem_map.1 ho
    cases o' <;> try (cases e; done)
    cases e
    rename_i obs
    cases obs with
    | exact p x N y =>
      show ((jit ε N).sq (numElements x)).PosDef
      rw [jit_sq]
      exact (smul_one_posDef hε).posSemidef_add (h.noise _ _ ho')
    | pseudo => exact (hx _ _ _ _ ho').elim
  · intro m pu p o ho
    obtain ⟨o', ho', e⟩ := List.mem_map.1 ho
    cases o' <;> try (cases e; done)
    rename_i obs
    cases obs <;> try (cases e; done)
    cases e
    exact hx _ _ _ _ ho'

theorem Tame.natural (h : Tame G ops) : ∀ o ∈ ops, o.Natural := fun o ho => (h.elem o ho).natural

/-- **C54, with jitter calls return.** With any positive jitter all calls of means and kernels return, whatever was observed: the same inputs twice, without noise, or
values that determine each other. -/
theorem C54_returns (h : Tame G ops) (hx : Exact ops) (hs : Steady ops) (hε : 0 < ε) (hp : Attached (runOps ops {}) m p)
    (hq : Attached (runOps ops {}) m q) (hxs : Rows (G p) xs) (hys : Rows (G q) ys) :
    (∃ v, MeanCallJ ε (runOps ops {}) m p (.num xs) v ∧ v.length = xs.length) ∧
    (∃ A, KernelCallJ ε (runOps ops {}) m p q (.num xs) (.num ys) A ∧ A.r = xs.length ∧ A.c = ys.length) ∧
    (xs.length = ys.length → ∃ u, ElwiseCallJ ε (runOps ops {}) m p q (.num xs) (.num ys) u ∧ u.length = xs.length) := by
  have hr := h.jitter hx hs hε
  have hp' := (renoise_attached (φ := jit ε) h.natural).2 hp
  have hq' := (renoise_attached (φ := jit ε) h.natural).2 hq
  simp only [C54_jitter_mean h.natural, C54_jitter_kernel h.natural, C54_jitter_elwise h.natural]
  exact ⟨hr.mean hp' hxs, hr.kernel hp' hq' hxs hys, fun e => hr.elwise hp' hq' hxs hys e⟩

/-! ## More noise -/

/-- **C54, more noise.** If all observations are made with more noise, everywhere in a stack of posteriors, then all variances, also of linear combinations of values of a
process, are at least as large. -/
theorem C54_more_noise {φ : Mat → Mat} (h : Regular G ops) (h' : Regular G (renoise φ ops)) (hu : Unmultiplied ops) (hx : Exact ops)
    (hφ : ∀ m p x N y, .condition m (.exact p x N y) ∈ ops → ((φ N).sq (numElements x) - N.sq (numElements x)).PosSemidef)
    (hp : Attached (runOps ops {}) m p) (hxs : Rows (G p) xs) {A A' : Mat} (hA : KernelCall (runOps ops {}) m p p (.num xs) (.num xs) A)
    (hA' : KernelCall (runOps (renoise φ ops) {}) m p p (.num xs) (.num xs) A') : (A'.sq xs.length - A.sq xs.length).PosSemidef := by
  have hp' := (renoise_attached (φ := φ) h.natural).2 hp
  obtain ⟨vs, hF, lv⟩ := h.value hp hxs
  have hF' := hF
  rw [← reading_renoise (φ := φ) h.elem hu m] at hF'
  have e1 := h.kernel_eq hp hp hxs hxs hA hF hF
  have e2 := h'.kernel_eq hp' hp' hxs hxs hA' hF' hF'
  have g1 : A.sq vs.length = gram ((reading ops).S m) vs := by
    ext i j
    show A.e i j = _
    rw [e1.e i i.2 j j.2]
    simp [covMat, gram]
  have g2 : A'.sq vs.length = gram ((reading (renoise φ ops)).S m) vs := by
    ext i j
    show A'.e i j = _
    rw [e2.e i i.2 j j.2]
    simp [covMat, gram]
  rw [← lv, g1, g2]
  refine PosSemidef.of_dotProduct_mulVec_nonneg ((gram_hermitian _ _).sub (gram_hermitian _ _)) fun w => ?_
  have := reading_mono h h' hu hx hφ m (comb vs w)
  rw [C_comb_comb, C_comb_comb] at this
  simpa [sub_mulVec, dotProduct_sub] using this

theorem Exact.renoise {φ : Mat → Mat} (hx : Exact ops) : Exact (Stheno.renoise φ ops) := by
  intro m pu p o ho
  obtain ⟨o', ho', e⟩ := List.mem_map.1 ho
  cases o' <;> try (cases e; done)
  rename_i obs
  cases obs <;> try (cases e; done)
  cases e
  exact hx _ _ _ _ ho'

theorem Unmultiplied.renoise {φ : Mat → Mat} (hu : Unmultiplied ops) : Unmultiplied (Stheno.renoise φ ops) := by
  intro p q ord ho
  obtain ⟨o', ho', e⟩ := List.mem_map.1 ho
  cases o' <;> try (cases e; done)
  cases e
  exact hu _ _ _ ho'

theorem renoise_jit_jit (δ : ℝ) : renoise (jit δ) (renoise (jit ε) ops) = renoise (jit (ε + δ)) ops := by
  unfold renoise
  rw [List.map_map]
  refine List.map_congr_left fun o _ => ?_
  cases o with
  | condition m obs =>
    cases obs with
    | exact p x N y =>
      simp only [Function.comp, Op.renoise, Obs.renoise]
      congr 2
      unfold jit
      simp only [Mat.mk.injEq, true_and]
      funext i j
      split <;> ring
    | pseudo => rfl
  | _ => rfl

/-- **C54, more jitter.** Jitter never makes posterior variances, also of linear combinations, smaller. -/
theorem C54_jitter_more (h : Regular G ops) (hu : Unmultiplied ops) (hx : Exact ops) (hε : 0 < ε) (hp : Attached (runOps ops {}) m p)
    (hxs : Rows (G p) xs) {A A' : Mat} (hA : KernelCall (runOps ops {}) m p p (.num xs) (.num xs) A)
    (hA' : KernelCallJ ε (runOps ops {}) m p p (.num xs) (.num xs) A') : (A'.sq xs.length - A.sq xs.length).PosSemidef := by
  rw [C54_jitter_kernel h.natural] at hA'
  refine C54_more_noise h (h.toTame.jitter hx (.inl hu) hε) hu hx (fun m p x N y _ => ?_) hp hxs hA hA'
  rw [jit_sq, add_sub_cancel_left]
  exact smul_one_posSemidef hε.le

/-- **C54, more jitter.** More jitter never makes them smaller. -/
theorem C54_more_jitter (h : Tame G ops) (hu : Unmultiplied ops) (hx : Exact ops) (hε : 0 < ε) (hε' : ε ≤ ε') (hp : Attached (runOps ops {}) m p)
    (hxs : Rows (G p) xs) {A A' : Mat} (hA : KernelCallJ ε (runOps ops {}) m p p (.num xs) (.num xs) A)
    (hA' : KernelCallJ ε' (runOps ops {}) m p p (.num xs) (.num xs) A') : (A'.sq xs.length - A.sq xs.length).PosSemidef := by
  rw [C54_jitter_kernel h.natural] at hA hA'
  have e : ε' = ε + (ε' - ε) := by ring
  have h' := h.jitter hx (.inl hu) (hε.trans_le hε')
  rw [e, ← renoise_jit_jit] at hA' h'
  refine C54_more_noise (h.jitter hx (.inl hu) hε) h' hu.renoise hx.renoise (fun m p x N y _ => ?_) ((renoise_attached h.natural).2 hp) hxs hA hA'
  rw [jit_sq, add_sub_cancel_left]
  exact smul_one_posSemidef (sub_nonneg.2 hε')

/-! ## The limit -/

/-- Without jitter there is nothing to add. -/
theorem C54_zero (hn : ∀ o ∈ ops, o.Natural) :
    (∀ v, MeanCallJ 0 (runOps ops {}) m p x v ↔ MeanCall (runOps ops {}) m p x v) ∧
    (∀ A, KernelCallJ 0 (runOps ops {}) m p q x y A ↔ KernelCall (runOps ops {}) m p q x y A) ∧
    ∀ u, ElwiseCallJ 0 (runOps ops {}) m p q x y u ↔ ElwiseCall (runOps ops {}) m p q x y u := by
  simp only [C54_jitter_mean hn, C54_jitter_kernel hn, C54_jitter_elwise hn, renoise_zero]
  simp

/-- **C54, the limit.** As the jitter goes to zero, results go to the results without jitter. -/
theorem C54_limit (h : Regular G ops) (hu : Unmultiplied ops) (hx : Exact ops) (hp : Attached (runOps ops {}) m p)
    (hq : Attached (runOps ops {}) m q) (hxs : Rows (G p) xs) (hys : Rows (G q) ys) {v : List ℝ} {v' : ℝ → List ℝ} {A : Mat} {A' : ℝ → Mat}
    (hv : MeanCall (runOps ops {}) m p (.num xs) v) (hv' : ∀ ε > 0, MeanCallJ ε (runOps ops {}) m p (.num xs) (v' ε))
    (hA : KernelCall (runOps ops {}) m p q (.num xs) (.num ys) A) (hA' : ∀ ε > 0, KernelCallJ ε (runOps ops {}) m p q (.num xs) (.num ys) (A' ε)) :
    (∀ i < xs.length, Filter.Tendsto (fun ε => (v' ε).getD i 0) (𝓝[>] 0) (𝓝 (v.getD i 0))) ∧
    ∀ i < xs.length, ∀ j < ys.length, Filter.Tendsto (fun ε => (A' ε).e i j) (𝓝[>] 0) (𝓝 (A.e i j)) := by
  have hr : ∀ᶠ ε in 𝓝[>] (0 : ℝ), Regular G (renoise (jit ε) ops) :=
    eventually_mem_nhdsWithin.mono fun ε hε => h.toTame.jitter hx (.inl hu) hε
  have hφ : ∀ N i j, Filter.Tendsto (fun ε => (jit ε N).e i j) (𝓝[>] 0) (𝓝 (N.e i j)) := by
    intro N i j
    have : Filter.Tendsto (fun ε : ℝ => N.e i j + if i = j then ε else 0) (𝓝 0) (𝓝 (N.e i j + if i = j then (0 : ℝ) else 0)) := by
      refine tendsto_const_nhds.add ?_
      split
      · exact Filter.tendsto_id
      · exact tendsto_const_nhds
    rw [ite_self, add_zero] at this
    exact this.mono_left nhdsWithin_le_nhds
  obtain ⟨hE, hC⟩ := reading_tendsto h hr hu hx hφ m
  obtain ⟨vs, hF, lv⟩ := h.value hp hxs
  obtain ⟨ws, hG, lw⟩ := h.value hq hys
  refine ⟨fun i hi => ?_, fun i hi j hj => ?_⟩ <;> have hi' : i < vs.length := lv ▸ hi
  · have e := h.mean_eq hp hxs hv hF
    have := hE (vs.getD i 0)
    rw [e]
    refine Filter.Tendsto.congr' (eventually_mem_nhdsWithin.mono fun ε hε => ?_) (by
      simpa [List.getD_eq_getElem?_getD, List.getElem?_eq_getElem hi'] using this)
    have hF' := hF
    rw [← reading_renoise (φ := jit ε) h.elem hu m] at hF'
    have e' := (h.toTame.jitter hx (.inl hu) hε).mean_eq ((renoise_attached h.natural).2 hp) hxs ((C54_jitter_mean h.natural).1 (hv' ε hε)) hF'
    show _ = (v' ε).getD i 0
    rw [e']
    simp [List.getD_eq_getElem?_getD, List.getElem?_eq_getElem hi']
  · have hj' : j < ws.length := lw ▸ hj
    have e := (h.kernel_eq hp hq hxs hys hA hF hG).e i hi' j hj'
    rw [e]
    refine Filter.Tendsto.congr' (eventually_mem_nhdsWithin.mono fun ε hε => ?_) (hC (vs.getD i 0) (ws.getD j 0))
    have hF' := hF
    have hG' := hG
    rw [← reading_renoise (φ := jit ε) h.elem hu m] at hF' hG'
    exact (((h.toTame.jitter hx (.inl hu) hε).kernel_eq ((renoise_attached h.natural).2 hp) ((renoise_attached h.natural).2 hq) hxs hys
      ((C54_jitter_kernel h.natural).1 (hA' ε hε)) hF' hG').e i hi' j hj').symm

/-- Tame programs can be conditioned with noise of positive semi-definite covariance, also without noise. -/
theorem Tame.condition (h : Tame G ops) {N : Mat} {y : List ℝ} (hp : Attached (runOps ops {}) m p)
    (hx : Rows (G p) xs) (hr : N.r = xs.length) (hc : N.c = xs.length) (hy : y.length = xs.length)
    (hn : (N.sq xs.length).PosSemidef) : Tame G (ops ++ [.condition m (.exact p (.num xs) N y)]) where
  elem o' ho' := by
    rcases List.mem_append.1 ho' with h1 | h1
    · exact h.elem o' h1
    · rw [List.mem_singleton.1 h1]; trivial
  defs before o' after e := by
    rcases snoc_split e with ⟨c', e', _⟩ | ⟨rfl, rfl, _⟩
    · exact h.defs before o' c' e'
    · intro m e he; exact (List.not_mem_nil he).elim
  obs before m obs after e := by
    rcases snoc_split e with ⟨c', e', _⟩ | ⟨rfl, e', _⟩
    · exact h.obs before m obs c' e'
    · cases e'
      exact fun _ => ⟨hr, hc, hy, .inl ⟨⟨xs, rfl, hx⟩, hp⟩⟩
  noise m obs ho := by
    rcases List.mem_append.1 ho with h1 | h1
    · exact h.noise m obs h1
    · cases List.mem_singleton.1 h1
      exact hn
  smooth := h.smooth_snoc (o := .condition m _) trivial fun _ _ _ h => by cases h

end

/-! ## Examples -/

/-- `p = GP(kernel)` for a kernel that is one everywhere, and the posterior given the value of `p` at the same input, twice, without noise. -/
noncomputable def twice : List Op :=
  [.gp .zero (.prim fun _ _ => 1) none none] ++ [.condition 0 (.exact 0 (.num [[0], [0]]) ⟨2, 2, fun _ _ => 0⟩ [1, 1])]

theorem flat_solid : Solid (fun _ _ => True) [.gp .zero (.prim fun _ _ => 1) none none] := by
  refine C46_extend (o := .gp .zero (.prim fun _ _ => 1) none none) .nil ⟨trivial, trivial, psd_const zero_le_one⟩
    (fun _ _ h => by cases h) (fun m e he _ => ?_) fun _ _ _ h => by cases h
  simp only [Op.written, List.mem_singleton] at he
  subst he
  exact ⟨trivial, trivial⟩

theorem twice_tame : Tame (fun _ _ => True) twice :=
  flat_solid.tame.condition (m := 0) (p := 0) (attached_iff.2 (by decide +kernel)) (by simp [Rows]) rfl rfl rfl
    (by convert PosSemidef.zero using 1; rfl)

theorem twice_exact : Exact twice := by
  intro m pu p o h
  simp [twice] at h

theorem twice_unmultiplied : Unmultiplied twice := by
  intro p q ord h
  simp [twice] at h

/-- Without jitter the kernel of the posterior cannot be called: the matrix is singular. -/
theorem twice_stuck (A : Mat) : ¬KernelCall (runOps twice {}) 1 0 0 (.num [[1]]) (.num [[1]]) A := by
  rintro ⟨k, n, hk, hA⟩
  have hk' : kernelAt (runOps twice {}) 1 0 0 =
    some (.post (.prim fun _ _ => 1) (.prim fun _ _ => 1) (.prim fun _ _ => 1) (.num [[0], [0]]) (.prim fun _ _ => 1) ⟨2, 2, fun _ _ => 0⟩) := rfl
  cases hk.symm.trans hk'
  rcases n with _ | n
  · cases hA
  have hs : stepKz (ev (meanAt (runOps twice {})) (kernelAt (runOps twice {})) n) (.prim fun _ _ => 1) (.num [[0], [0]]) ⟨2, 2, fun _ _ => 0⟩ = none := by
    rcases n with _ | n
    · rfl
    refine if_neg fun h => ?_
    replace h : 2 = 2 ∧ ((⟨2, 2, fun _ _ => 1 + 0⟩ : Mat).sq 2).PosDef := h
    have := h.2.dotProduct_mulVec_pos (x := ![1, -1]) (by intro h0; simpa using congrFun h0 0)
    simp [Mat.sq, mulVec, dotProduct, Fin.sum_univ_two] at this
  rcases n with _ | n
  · cases hA
  · replace hA : (do
      let A ← some (⟨1, 1, fun _ _ => 1⟩ : Mat)
      let K ← stepKz (ev (meanAt (runOps twice {})) (kernelAt (runOps twice {})) (n + 1)) (.prim fun _ _ => 1) (.num [[0], [0]]) ⟨2, 2, fun _ _ => 0⟩
      let B ← some (⟨2, 1, fun _ _ => 1⟩ : Mat)
      let C ← some (⟨2, 1, fun _ _ => 1⟩ : Mat)
      A.sub (← Mat.quad (K.sq K.r)⁻¹ B C)) = some A := hA
    rw [hs] at hA
    cases hA

/-- With any jitter, it can. -/
example : ∃ A, KernelCallJ (1 / 1000000) (runOps twice {}) 1 0 0 (.num [[1]]) (.num [[1]]) A ∧ A.r = 1 ∧ A.c = 1 :=
  (C54_returns (m := 1) (p := 0) (q := 0) (xs := [[1]]) (ys := [[1]]) twice_tame twice_exact (.inl twice_unmultiplied) (by norm_num)
    (attached_iff.2 (by decide +kernel)) (attached_iff.2 (by decide +kernel)) (.one trivial) (.one trivial)).2.1

/-- More jitter, more variance. -/
example {A A' : Mat} (hA : KernelCallJ (1 / 1000000) (runOps twice {}) 1 0 0 (.num [[1], [2]]) (.num [[1], [2]]) A)
    (hA' : KernelCallJ (1 / 1000) (runOps twice {}) 1 0 0 (.num [[1], [2]]) (.num [[1], [2]]) A') : (A'.sq 2 - A.sq 2).PosSemidef :=
  C54_more_jitter twice_tame twice_unmultiplied twice_exact (by norm_num) (by norm_num) (attached_iff.2 (by decide +kernel)) (by simp [Rows]) hA hA'

/-- The same, observed once with noise. -/
noncomputable def oneLook : List Op :=
  [.gp .zero (.prim fun _ _ => 1) none none] ++ [.condition 0 (.exact 0 (.num [[0]]) ⟨1, 1, fun _ _ => 1⟩ [1])]

theorem single_sq (c : ℝ) : (⟨1, 1, fun _ _ => c⟩ : Mat).sq 1 = c • 1 := by
  ext i j
  simp [Mat.sq, Subsingleton.elim i j]

theorem oneLook_regular : Regular (fun _ _ => True) oneLook :=
  (C46_condition (m := 0) (p := 0) flat_solid (attached_iff.2 (by decide +kernel)) (.one trivial) rfl rfl rfl
    (by
      show ((⟨1, 1, fun _ _ => 1⟩ : Mat).sq 1).PosDef
      rw [single_sq]
      exact smul_one_posDef one_pos)).regular

theorem oneLook_exact : Exact oneLook := by
  intro m pu p o h
  simp [oneLook] at h

theorem oneLook_unmultiplied : Unmultiplied oneLook := by
  intro p q ord h
  simp [oneLook] at h

/-- Jitter is noise. -/
example {A : Mat} : KernelCallJ 1 (runOps oneLook {}) 1 0 0 (.num [[1]]) (.num [[1]]) A ↔ KernelCall (runOps
    ([.gp .zero (.prim fun _ _ => 1) none none] ++ [.condition 0 (.exact 0 (.num [[0]]) ⟨1, 1, fun i j => 1 + if i = j then 1 else 0⟩ [1])]) {})
    1 0 0 (.num [[1]]) (.num [[1]]) A :=
  C54_jitter_kernel oneLook_regular.natural

/-- Four times the noise. -/
example {A A' : Mat} (hA : KernelCall (runOps oneLook {}) 1 0 0 (.num [[1], [2]]) (.num [[1], [2]]) A)
    (hA' : KernelCall (runOps
      ([.gp .zero (.prim fun _ _ => 1) none none] ++ [.condition 0 (.exact 0 (.num [[0]]) ⟨1, 1, fun _ _ => 4⟩ [1])]) {})
      1 0 0 (.num [[1], [2]]) (.num [[1], [2]]) A') : (A'.sq 2 - A.sq 2).PosSemidef := by
  refine C54_more_noise (φ := fun N => ⟨N.r, N.c, fun i j => 4 * N.e i j⟩) oneLook_regular ?_ oneLook_unmultiplied oneLook_exact ?_
    (attached_iff.2 (by decide +kernel)) (by simp [Rows]) hA (by simpa [oneLook, renoise, Op.renoise, Obs.renoise] using hA')
  · exact (C46_condition (m := 0) (p := 0) flat_solid (attached_iff.2 (by decide +kernel)) (.one trivial) rfl rfl rfl
      (by
        show ((⟨1, 1, fun _ _ => 4 * 1⟩ : Mat).sq 1).PosDef
        rw [single_sq]
        exact smul_one_posDef (by norm_num))).regular
  · intro m p x N y h
    simp only [oneLook, List.cons_append, List.nil_append, List.mem_cons, List.not_mem_nil, or_false, reduceCtorEq, false_or, Op.condition.injEq,
      Obs.exact.injEq] at h
    obtain ⟨-, -, rfl, rfl, -⟩ := h
    show ((⟨1, 1, fun _ _ => 4 * 1⟩ : Mat).sq 1 - (⟨1, 1, fun _ _ => 1⟩ : Mat).sq 1).PosSemidef
    rw [single_sq, single_sq, ← sub_smul]
    exact smul_one_posSemidef (by norm_num)

/-- The limit, for all results that the calls return. -/
example : ∃ (A : Mat) (A' : ℝ → Mat), KernelCall (runOps oneLook {}) 1 0 0 (.num [[1]]) (.num [[2]]) A ∧
    (∀ ε > 0, KernelCallJ ε (runOps oneLook {}) 1 0 0 (.num [[1]]) (.num [[2]]) (A' ε)) ∧
    Filter.Tendsto (fun ε => (A' ε).e 0 0) (𝓝[>] 0) (𝓝 (A.e 0 0)) := by
  have hp : Attached (runOps oneLook {}) 1 0 := attached_iff.2 (by decide +kernel)
  obtain ⟨A, hA, -⟩ := oneLook_regular.kernel hp hp (xs := [[1]]) (ys := [[2]]) (.one trivial) (.one trivial)
  obtain ⟨v, hv, -⟩ := oneLook_regular.mean hp (xs := [[1]]) (.one trivial)
  have hr := fun (ε : ℝ) (hε : ε > 0) => C54_returns oneLook_regular.toTame oneLook_exact (.inl oneLook_unmultiplied) hε hp hp (xs := [[1]]) (ys := [[2]])
    (.one trivial) (.one trivial)
  choose v' A' hv' hA' using fun (ε : ℝ) (hε : ε > 0) => (⟨(hr ε hε).1.choose, (hr ε hε).2.1.choose, (hr ε hε).1.choose_spec.1, (hr ε hε).2.1.choose_spec.1⟩ :
    ∃ v A, MeanCallJ ε (runOps oneLook {}) 1 0 (.num [[1]]) v ∧ KernelCallJ ε (runOps oneLook {}) 1 0 0 (.num [[1]]) (.num [[2]]) A)
  classical
  let A'' := fun ε : ℝ => if h : ε > 0 then A' ε h else ⟨0, 0, fun _ _ => 0⟩
  have h1 : ∀ ε > 0, KernelCallJ ε (runOps oneLook {}) 1 0 0 (.num [[1]]) (.num [[2]]) (A'' ε) := by
    intro ε hε
    simp only [A'', dif_pos hε]
    exact hA' ε hε
  refine ⟨A, A'', hA, h1, (C54_limit oneLook_regular oneLook_unmultiplied oneLook_exact hp hp (.one trivial) (.one trivial) hv
    (v' := fun ε => if h : ε > 0 then v' ε h else []) (fun ε hε => ?_) hA h1).2 0 (by decide) 0 (by decide)⟩
  simp only [dif_pos hε]
  exact hv' ε hε

end Stheno
