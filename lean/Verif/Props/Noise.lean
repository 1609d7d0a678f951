import Verif.Props.Fdd
import Verif.Props.Normal
import Verif.MeasureFns

/-!
# Noise arguments (C48)
-/

namespace Stheno

open Matrix MeasureTheory ProbabilityTheory

/-- The covariance matrix of `n` noise variables, for a noise argument that fits: no noise; independent noise of variance `c`; independent noise
with the given variances; noise with the given covariances. -/
inductive NoiseArg.Covs (n : ℕ) : NoiseArg → Matrix (Fin n) (Fin n) ℝ → Prop where
  | none : Covs n .none 0
  | scalar (c : ℝ) : Covs n (.scalar c) (c • 1)
  | vec (d : Fin n → ℝ) : Covs n (.vec (List.ofFn d)) (diagonal d)
  | mat (A : Mat) : A.r = n → A.c = n → Covs n (.mat A) fun i j => A.e i j

section
variable {C : PId → Prop} {D : PId → ℕ} {ops : List Op} {p : PId} {x : Input}

/-- **C48.** If `p(x)` is the distribution of a Gaussian vector `X`, then `p(x, noise)` is the distribution of `X` plus independent noise as the argument
says. -/
theorem C48_noise (h : Tells C D ops) (hx : C p → x.Flat C) {arg : NoiseArg} {f f0 : Fdd} {v : List ℝ} {K : Mat}
    (hf0 : mkFdd (runOps ops {}) p x .none = some f0) (hv : FddNormal (runOps ops {}) f0 v K) {S : Matrix (Fin K.r) (Fin K.r) ℝ}
    (hS : arg.Covs K.r S) (hf : mkFdd (runOps ops {}) p x arg = some f) :
    ∃ V, FddNormal (runOps ops {}) f v V ∧ V.r = K.r ∧ V.c = K.r ∧
      ∀ {Ω : Type} [MeasurableSpace Ω] (P : Measure Ω) [IsProbabilityMeasure P] (X E : Ω → Fin K.r → ℝ), IsNormal P X (asNormal (.col v) K) →
        IsNormal P E ⟨0, S⟩ → IndepFun X E P → IsNormal P (fun ω => X ω + E ω) ⟨fun i => v.getD i 0, fun i j => V.e i j⟩ := by
  obtain ⟨m, K', hm, hmean, hK, hadd⟩ := hv
  have hz := (C27_size (m := m) h hx (.inl rfl) hf0).2 K'
  obtain ⟨k, hk, hf0⟩ := bind_some hf0
  obtain ⟨n, hs, hf0⟩ := bind_some hf0
  cases hf0
  obtain ⟨k', hk', hf⟩ := bind_some hf
  obtain ⟨n', hs', hf⟩ := bind_some hf
  cases hf
  rw [hk] at hk'; cases hk'
  rw [hs] at hs'; cases hs'
  simp only at hm hmean hK hadd hz
  obtain ⟨z1, z2⟩ := hz hK
  have eK : K = ⟨K'.r, K'.c, fun i j => K'.e i j + 0⟩ := by
    rw [Mat.add, if_pos ⟨z1.symm, z2.symm⟩] at hadd
    exact (Option.some.inj hadd).symm
  have hn : K.r = n := by rw [eK]; exact z1.symm
  have hc : K'.c = n := z2.symm
  have hr : K'.r = n := z1.symm
  have he : ∀ i j, K.e i j = K'.e i j := fun i j => by rw [eK]; simp
  have key : (noiseAsMatrix arg n).r = n ∧ (noiseAsMatrix arg n).c = n ∧
      ∀ i j : Fin K.r, (noiseAsMatrix arg n).e i j = S i j := by
    cases hS with
    | none => exact ⟨rfl, rfl, fun _ _ => rfl⟩
    | scalar c =>
      refine ⟨rfl, rfl, fun i j => ?_⟩
      simp [noiseAsMatrix, Matrix.one_apply, Fin.ext_iff]
    | vec d =>
      refine ⟨by simp [noiseAsMatrix, hn], by simp [noiseAsMatrix, hn], fun i j => ?_⟩
      simp [noiseAsMatrix, diagonal_apply, Fin.ext_iff]
    | mat A h1 h2 => exact ⟨h1.trans hn, h2.trans hn, fun _ _ => rfl⟩
  obtain ⟨k1, k2, k3⟩ := key
  refine ⟨_, ⟨m, K', hm, hmean, hK, if_pos ⟨hr.trans k1.symm, hc.trans k2.symm⟩⟩, hr.trans hn.symm, hc.trans hn.symm, ?_⟩
  intro Ω _ P _ X E hX hE hi
  refine (hX.add hE hi).congr rfl (Normal.ext ?_ ?_)
  · funext i
    simp [asNormal, MeanVal.entries]
  · ext i j
    show K'.e i j + (noiseAsMatrix arg n).e i j = K.e i j + S i j
    rw [he, k3]

/-- **C48.** Noise with the wrong number of rows or columns: the variance raises. -/
theorem C48_raises (h : Tells C D ops) (hx : C p → x.Flat C) {arg : NoiseArg} {f f0 : Fdd} {v : List ℝ} {K : Mat}
    (hf0 : mkFdd (runOps ops {}) p x .none = some f0) (hv : FddNormal (runOps ops {}) f0 v K)
    (hS : (∃ cs : List ℝ, cs.length ≠ K.r ∧ arg = .vec cs) ∨ ∃ A : Mat, (A.r ≠ K.r ∨ A.c ≠ K.r) ∧ arg = .mat A)
    (hf : mkFdd (runOps ops {}) p x arg = some f) : ¬ ∃ v V, FddNormal (runOps ops {}) f v V := by
  rintro ⟨v', V, m', K2, hm', hmean', hK', hadd'⟩
  obtain ⟨m, K', hm, hmean, hK, hadd⟩ := hv
  have hz := (C27_size (m := m) h hx (.inl rfl) hf0).2 K'
  obtain ⟨k, hk, hf0⟩ := bind_some hf0
  obtain ⟨n, hs, hf0⟩ := bind_some hf0
  cases hf0
  obtain ⟨k', hk', hf⟩ := bind_some hf
  obtain ⟨n', hs', hf⟩ := bind_some hf
  cases hf
  rw [hk] at hk'; cases hk'
  rw [hs] at hs'; cases hs'
  simp only at hm hmean hK hadd hz hm' hmean' hK' hadd'
  rw [hm] at hm'; cases hm'
  cases hK.unique hK'
  obtain ⟨z1, z2⟩ := hz hK
  have hn : K.r = n := by
    rw [Mat.add, if_pos ⟨z1.symm, z2.symm⟩] at hadd
    rw [← Option.some.inj hadd]; exact z1.symm
  have hne : K2.r = (noiseAsMatrix arg n).r ∧ K2.c = (noiseAsMatrix arg n).c := by
    by_contra hne
    rw [Mat.add, if_neg hne] at hadd'
    cases hadd'
  have e1 : n = K2.r := z1
  have e2 : n = K2.c := z2
  rw [← e1, ← e2] at hne
  rcases hS with ⟨cs, hcs, rfl⟩ | ⟨A, hA, rfl⟩
  · exact hcs (by rw [hn]; exact hne.1.symm)
  · rcases hA with hA | hA
    · exact hA (by rw [hn]; exact hne.1.symm)
    · exact hA (by rw [hn]; exact hne.2.symm)

end

/-- Three values of a process of `trial` with noise: the variance is the kernel matrix plus one on the diagonal. -/
example : ∃ f0 f v K V, mkFdd (runOps trial {}) 2 (.num [[0], [1], [2]]) .none = some f0 ∧ FddNormal (runOps trial {}) f0 v K ∧
    mkFdd (runOps trial {}) 2 (.num [[0], [1], [2]]) (.scalar 1) = some f ∧ K.r = 3 ∧
    NoiseArg.Covs K.r (.scalar 1) ((1 : ℝ) • 1) ∧ FddNormal (runOps trial {}) f v V := by
  have hat : Attached (runOps trial {}) 0 2 := attached_iff.2 (by decide +kernel)
  obtain ⟨v, hv, lv⟩ := trial_regular.mean hat (xs := [[0], [1], [2]]) (rows_off (by decide))
  obtain ⟨K, hK, rK, cK⟩ := trial_regular.kernel hat hat (xs := [[0], [1], [2]]) (ys := [[0], [1], [2]]) (rows_off (by decide)) (rows_off (by decide))
  have h0 : FddNormal (runOps trial {}) ⟨2, .num [[0], [1], [2]], noiseAsMatrix .none 3⟩ v _ :=
    ⟨0, K, rfl, hv, hK, if_pos ⟨rK, cK⟩⟩
  obtain ⟨V, hV, _⟩ := C48_noise trial_tells (p := 2) (x := .num [[0], [1], [2]])
    (fun h => by rcases h with h | h <;> cases h) rfl h0 (.scalar 1) rfl
  exact ⟨_, _, _, _, V, rfl, h0, rfl, rK, .scalar 1, hV⟩

end Stheno
