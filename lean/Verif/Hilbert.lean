import Mathlib.Analysis.InnerProductSpace.Reproducing
import Mathlib.Analysis.InnerProductSpace.l2Space
import Verif.Interp

/-!
# A space of random variables

One Hilbert space that has random variables with every mean and every positive semi-definite covariance, uncorrelated
for different names.
-/

namespace Stheno

open Matrix

/-- Positive semi-definite functions of two rows. -/
structure IsPSD (c : Pt → Pt → ℝ) : Prop where
  symm : ∀ x y, c x y = c y x
  nonneg : ∀ (s : Finset Pt) (a : Pt → ℝ), 0 ≤ ∑ x ∈ s, ∑ y ∈ s, a x * a y * c x y

/-- Covariances. -/
abbrev Kern := {c : Pt → Pt → ℝ // IsPSD c}

/-- A covariance as a matrix of operators. -/
noncomputable def Kern.mat (c : Kern) : Matrix Pt Pt (ℝ →L[ℝ] ℝ) := fun x y => c.1 x y • 1

theorem Kern.mat_psd (c : Kern) : c.mat.PosSemidef := by
  refine ((RKHS.posSemidef_tfae (K := c.mat)).out 0 2 rfl rfl).2 ⟨?_, fun v => ?_⟩
  · ext x y
    simp [Kern.mat, Matrix.conjTranspose_apply, c.2.symm x y]
  · have := c.2.nonneg v.support v
    refine this.trans_eq ?_
    simp only [Finsupp.sum, Kern.mat, RCLike.re_to_real]
    refine Finset.sum_congr rfl fun x _ => Finset.sum_congr rfl fun y _ => ?_
    simp [c.2.symm y x]
    ring

instance (c : Kern) : Fact c.mat.PosSemidef := ⟨c.mat_psd⟩

/-- The Hilbert space of a covariance. -/
abbrev Kern.Space (c : Kern) : Type := RKHS.OfKernel c.mat

/-- The variable at a row. -/
noncomputable def Kern.at (c : Kern) (x : Pt) : c.Space := RKHS.kerFun (𝕜 := ℝ) c.Space x 1

theorem Kern.inner_at (c : Kern) (x y : Pt) : inner ℝ (c.at x) (c.at y) = c.1 x y := by
  have := RKHS.kernel_inner (𝕜 := ℝ) c.Space y x (1 : ℝ) (1 : ℝ)
  rw [RKHS.OfKernel.kernel_ofKernel] at this
  rw [Kern.at, Kern.at, ← this]
  simp [Kern.mat, c.2.symm y x]

noncomputable instance : DecidableEq (ℕ × ℕ × Kern) := Classical.decEq _

/-- Random variables: the expectation, and the rest in the sum of the spaces of all covariances, one for every measure and process. -/
abbrev RV : Type := ℝ × lp (fun i : ℕ × ℕ × Kern => i.2.2.Space) 2

/-- The constant one. -/
noncomputable def rvOne : RV := (1, 0)

open Classical in
/-- The variables of process `p` created in measure `m`, with means `e` and covariances `c`. -/
noncomputable def rv (m : MId) (p : PId) (e : Pt → ℝ) (c : Pt → Pt → ℝ) (x : Pt) : RV :=
  (e x, if h : IsPSD c then lp.single 2 (m, p, ⟨c, h⟩) (Kern.at ⟨c, h⟩ x) else 0)

/-- Expectation and covariance before conditioning. -/
noncomputable def so0 : SO RV where
  E := LinearMap.fst ℝ ℝ _
  C := LinearMap.mk₂ ℝ (fun u v => inner ℝ u.2 v.2)
    (fun u u' v => by simp [inner_add_left])
    (fun c u v => by simp [inner_smul_left])
    (fun u v v' => by simp [inner_add_right])
    (fun c u v => by simp [inner_smul_right])
  symm u v := by simp [real_inner_comm]

theorem so0_E (u : RV) : so0.E u = u.1 := rfl
theorem so0_C (u v : RV) : so0.C u v = inner ℝ u.2 v.2 := rfl

theorem so0_one : so0.E rvOne = 1 ∧ ∀ v, so0.C rvOne v = 0 := ⟨rfl, fun v => by rw [so0_C, rvOne, inner_zero_left]⟩

theorem so0_rv_E (m : MId) (p : PId) (e : Pt → ℝ) (c : Pt → Pt → ℝ) (x : Pt) : so0.E (rv m p e c x) = e x := rfl

theorem so0_rv_C (m : MId) (p : PId) (e : Pt → ℝ) {c : Pt → Pt → ℝ} (h : IsPSD c) (x y : Pt) :
    so0.C (rv m p e c x) (rv m p e c y) = c x y := by
  rw [so0_C, rv, rv]
  simp only [dif_pos h]
  rw [lp.inner_single_left, lp.single_apply_self, Kern.inner_at]

/-- Variables of measures before `m`, variables of `K` in `m`, and their limits. -/
def sup (m : MId) (K : List PId) : Submodule ℝ RV where
  carrier := {v | ∀ i : ℕ × ℕ × Kern, ¬ (i.1 < m ∨ (i.1 = m ∧ i.2.1 ∈ K)) → v.2 i = 0}
  zero_mem' := fun i _ => rfl
  add_mem' := fun {u v} hu hv i hi => by
    show (u.2 + v.2) i = 0
    rw [lp.coeFn_add, Pi.add_apply, hu i hi, hv i hi, add_zero]
  smul_mem' := fun c u hu i hi => by
    show (c • u.2) i = 0
    rw [lp.coeFn_smul, Pi.smul_apply, hu i hi, smul_zero]

theorem sup_closed (m : MId) (K : List PId) : IsClosed (sup m K : Set RV) := by
  have : (sup m K : Set RV) = ⋂ i : ℕ × ℕ × Kern, ⋂ _ : ¬ (i.1 < m ∨ (i.1 = m ∧ i.2.1 ∈ K)), {v : RV | v.2 i = 0} := by
    ext v; simp [sup]
  rw [this]
  refine isClosed_iInter fun i => isClosed_iInter fun _ => ?_
  exact isClosed_eq (((lp.evalCLM ℝ (fun i : ℕ × ℕ × Kern => i.2.2.Space) 2 i).continuous).comp continuous_snd) continuous_const

theorem rvOne_sup (m : MId) (K : List PId) : rvOne ∈ sup m K := fun _ _ => rfl

theorem rv_sup {m : MId} {K : List PId} {r : PId} (h : r ∈ K) (e : Pt → ℝ) (c : Pt → Pt → ℝ) (x : Pt) : rv m r e c x ∈ sup m K := by
  intro i hi
  unfold rv
  split
  · next hc =>
    refine lp.single_apply_ne 2 _ _ ?_
    rintro rfl
    exact hi (.inr ⟨rfl, h⟩)
  · rfl

theorem sup_mono {m : MId} {K K' : List PId} (h : ∀ p ∈ K, p ∈ K') : sup m K ≤ sup m K' :=
  fun _ hv i hi => hv i fun h' => hi (h'.imp_right fun h'' => ⟨h''.1, h _ h''.2⟩)

theorem sup_lt {m m' : MId} {K K' : List PId} (h : m < m') : sup m K ≤ sup m' K' :=
  fun _ hv i hi => hv i fun h' => hi (.inl (h'.elim (·.trans h) fun h'' => h''.1 ▸ h))

/-- Variables with different names are uncorrelated. -/
theorem so0_orth {m : MId} {K : List PId} {r : PId} (h : r ∉ K) {w : RV} (hw : w ∈ sup m K) (e : Pt → ℝ) (c : Pt → Pt → ℝ) (y : Pt) :
    so0.C (rv m r e c y) w = 0 := by
  rw [so0_C, rv]
  split
  · next hc =>
    rw [lp.inner_single_left, hw (m, r, ⟨c, hc⟩), inner_zero_right]
    rintro (h' | h')
    · exact lt_irrefl _ h'
    · exact h h'.2
  · exact inner_zero_left _

end Stheno
