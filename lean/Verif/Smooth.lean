import Mathlib.Analysis.Calculus.ContDiff.Basic
import Mathlib.Analysis.Calculus.Deriv.MeanValue
import Mathlib.Analysis.InnerProductSpace.Continuous
import Verif.Stable

/-!
# Differentiability in mean square

Random variables are differentiable in mean square if and only if their covariance function has a mixed second
difference quotient at the diagonal, in particular if it is twice continuously differentiable.
-/

namespace Stheno

open Filter Topology

section
variable {H : Type} [NormedAddCommGroup H] [InnerProductSpace ℝ H]

/-- The mixed second difference quotient of a function of two numbers at zero. -/
noncomputable def mixed (K : ℝ → ℝ → ℝ) (p : ℝ × ℝ) : ℝ := (K p.1 p.2 - K p.1 0 - K 0 p.2 + K 0 0) / (p.1 * p.2)

theorem inner_slope (f : ℝ → H) (s t : ℝ) :
    inner ℝ (slope f 0 s) (slope f 0 t) = mixed (fun s t => inner ℝ (f s) (f t)) (s, t) := by
  simp only [slope, vsub_eq_sub, sub_zero, inner_smul_left, inner_smul_right, inner_sub_left, inner_sub_right, mixed]
  simp only [RCLike.conj_to_real, div_eq_mul_inv, mul_inv]
  ring

/-- The mean-square derivative exists if the covariances have a mixed second difference quotient. -/
theorem differentiable_of_mixed [CompleteSpace H] {f : ℝ → H} {L : ℝ}
    (h : Tendsto (mixed fun s t => inner ℝ (f s) (f t)) (𝓝[≠] 0 ×ˢ 𝓝[≠] 0) (𝓝 L)) : DifferentiableAt ℝ f 0 := by
  have hc : Cauchy (map (slope f 0) (𝓝[≠] (0 : ℝ))) := by
    rw [Metric.cauchy_iff]
    refine ⟨inferInstance, fun ε hε => ?_⟩
    have := Metric.tendsto_nhds.1 h (ε ^ 2 / 4) (by positivity)
    obtain ⟨U, hU, V, hV, hUV⟩ := Filter.mem_prod_iff.1 this
    refine ⟨slope f 0 '' (U ∩ V), Filter.image_mem_map (inter_mem hU hV), ?_⟩
    rintro _ ⟨s, hs, rfl⟩ _ ⟨t, ht, rfl⟩
    have key : ∀ a ∈ U ∩ V, ∀ b ∈ U ∩ V, |inner ℝ (slope f 0 a) (slope f 0 b) - L| < ε ^ 2 / 4 := by
      intro a ha b hb
      have := hUV (Set.mk_mem_prod ha.1 hb.2)
      rw [inner_slope, ← Real.dist_eq]
      exact this
    rw [dist_eq_norm]
    have e : ‖slope f 0 s - slope f 0 t‖ ^ 2 = (inner ℝ (slope f 0 s) (slope f 0 s) - L) - (inner ℝ (slope f 0 s) (slope f 0 t) - L) -
        (inner ℝ (slope f 0 t) (slope f 0 s) - L) + (inner ℝ (slope f 0 t) (slope f 0 t) - L) := by
      rw [← real_inner_self_eq_norm_sq]
      simp only [inner_sub_left, inner_sub_right]
      ring
    have h1 := abs_lt.1 (key s hs s hs)
    have h2 := abs_lt.1 (key s hs t ht)
    have h3 := abs_lt.1 (key t ht s hs)
    have h4 := abs_lt.1 (key t ht t ht)
    refine lt_of_pow_lt_pow_left₀ 2 hε.le ?_
    rw [e]
    linarith
  obtain ⟨g, hg⟩ := CompleteSpace.complete hc
  exact (hasDerivAt_iff_tendsto_slope.2 (hg : Tendsto _ _ _)).differentiableAt

/-- Conversely. -/
theorem mixed_of_differentiable {f : ℝ → H} (h : DifferentiableAt ℝ f 0) :
    Tendsto (mixed fun s t => inner ℝ (f s) (f t)) (𝓝[≠] 0 ×ˢ 𝓝[≠] 0) (𝓝 (inner ℝ (deriv f 0) (deriv f 0))) := by
  have hs := hasDerivAt_iff_tendsto_slope.1 h.hasDerivAt
  have := (hs.comp tendsto_fst).inner (𝕜 := ℝ) (hs.comp (tendsto_snd (f := 𝓝[≠] (0 : ℝ)) (g := 𝓝[≠] (0 : ℝ))))
  refine this.congr fun p => ?_
  exact inner_slope f p.1 p.2

end

/-- Functions of two numbers that are twice continuously differentiable have a mixed second difference quotient. -/
theorem mixed_of_contDiff {K : ℝ → ℝ → ℝ} (h : ContDiff ℝ 2 fun p : ℝ × ℝ => K p.1 p.2) :
    ∃ L, Tendsto (mixed K) (𝓝[≠] 0 ×ˢ 𝓝[≠] 0) (𝓝 L) := by
  set F : ℝ × ℝ → ℝ := fun p => K p.1 p.2 with hF
  set G : ℝ × ℝ → ℝ := fun p => fderiv ℝ F p (1, 0) with hG
  set M : ℝ × ℝ → ℝ := fun p => fderiv ℝ G p (0, 1) with hM
  have hG1 : ContDiff ℝ 1 G := (h.fderiv_right (m := 1) (by norm_num)).clm_apply contDiff_const
  have hMc : Continuous M := (hG1.continuous_fderiv (by norm_num)).clm_apply continuous_const
  have d1 : ∀ s t, HasDerivAt (fun s => K s t) (G (s, t)) s := fun s t => by
    have h1 := (h.differentiable (by norm_num) (s, t)).hasFDerivAt
    have h2 : HasDerivAt (fun s : ℝ => (s, t)) ((1 : ℝ), (0 : ℝ)) s := (hasDerivAt_id s).prodMk (hasDerivAt_const s t)
    exact h1.comp_hasDerivAt (f := fun s : ℝ => (s, t)) s h2
  have d2 : ∀ s t, HasDerivAt (fun t => G (s, t)) (M (s, t)) t := fun s t => by
    have h1 := (hG1.differentiable (by norm_num) (s, t)).hasFDerivAt
    have h2 : HasDerivAt (fun t : ℝ => (s, t)) ((0 : ℝ), (1 : ℝ)) t := (hasDerivAt_const t s).prodMk (hasDerivAt_id t)
    exact h1.comp_hasDerivAt (f := fun t : ℝ => (s, t)) t h2
  -- the mean value theorem, for both signs
  have mvt : ∀ (φ φ' : ℝ → ℝ), (∀ x, HasDerivAt φ (φ' x) x) → ∀ s, s ≠ 0 → ∃ ξ, |ξ| < |s| ∧ φ s - φ 0 = φ' ξ * s := by
    intro φ φ' hd s hs
    rcases lt_or_gt_of_ne hs with hs | hs
    · obtain ⟨ξ, hξ, e⟩ := exists_hasDerivAt_eq_slope φ φ' hs (fun x _ => (hd x).continuousAt.continuousWithinAt) fun x _ => hd x
      refine ⟨ξ, by rw [abs_of_neg hξ.2, abs_of_neg hs]; linarith [hξ.1], ?_⟩
      rw [e]; field_simp [hs.ne]; ring
    · obtain ⟨ξ, hξ, e⟩ := exists_hasDerivAt_eq_slope φ φ' hs (fun x _ => (hd x).continuousAt.continuousWithinAt) fun x _ => hd x
      refine ⟨ξ, by rw [abs_of_pos hξ.1, abs_of_pos hs]; exact hξ.2, ?_⟩
      rw [e]; field_simp [hs.ne']; ring
  have key : ∀ s t, s ≠ 0 → t ≠ 0 → ∃ ξ η, |ξ| < |s| ∧ |η| < |t| ∧ mixed K (s, t) = M (ξ, η) := by
    intro s t hs ht
    obtain ⟨ξ, hξ, e1⟩ := mvt (fun s => K s t - K s 0) (fun s => G (s, t) - G (s, 0)) (fun x => (d1 x t).sub (d1 x 0)) s hs
    obtain ⟨η, hη, e2⟩ := mvt (fun t => G (ξ, t)) (fun t => M (ξ, t)) (fun x => d2 ξ x) t ht
    refine ⟨ξ, η, hξ, hη, ?_⟩
    unfold mixed
    rw [div_eq_iff (mul_ne_zero hs ht)]
    simp only at e1 e2 ⊢
    rw [e2] at e1
    linarith
  refine ⟨M (0, 0), Metric.tendsto_nhds.2 fun ε hε => ?_⟩
  obtain ⟨δ, hδ, hball⟩ := Metric.continuous_iff.1 hMc (0, 0) ε hε
  have hn : ∀ᶠ s in 𝓝[≠] (0 : ℝ), s ≠ 0 ∧ |s| < δ := by
    refine (eventually_mem_nhdsWithin).and (nhdsWithin_le_nhds ?_)
    filter_upwards [Metric.ball_mem_nhds (0 : ℝ) hδ] with s hs
    simpa [Real.dist_eq] using hs
  filter_upwards [hn.prod_mk hn] with p hp
  obtain ⟨⟨hs, hs'⟩, ht, ht'⟩ := hp
  obtain ⟨ξ, η, hξ, hη, e⟩ := key p.1 p.2 hs ht
  rw [show p = (p.1, p.2) from rfl, e]
  refine hball _ ?_
  rw [Prod.dist_eq]
  simp only [Real.dist_eq, sub_zero]
  exact max_lt (hξ.trans hs') (hη.trans ht')

end Stheno
