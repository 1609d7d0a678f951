import Verif.Model
import Verif.EvalBig

/-!
# Evaluating means and kernels of a model

What a user observes when calling the means and kernels of a measure.
-/

namespace Stheno

/-- `measure.means[p](x)` returns `v`. -/
def MeanCall (w : World) (m : MId) (p : PId) (x : Input) (v : List ℝ) : Prop :=
  ∃ a n, meanAt w m p = some a ∧ (ev (meanAt w) (kernelAt w) n).M a x = some v

/-- `measure.kernels[p, q](x, y)` returns `A`. -/
def KernelCall (w : World) (m : MId) (p q : PId) (x y : Input) (A : Mat) : Prop :=
  ∃ k n, kernelAt w m p q = some k ∧ (ev (meanAt w) (kernelAt w) n).K k x y = some A

/-- `measure.kernels[p, q].elwise(x, y)` returns `u`. -/
def ElwiseCall (w : World) (m : MId) (p q : PId) (x y : Input) (u : List ℝ) : Prop :=
  ∃ k n, kernelAt w m p q = some k ∧ (ev (meanAt w) (kernelAt w) n).D k x y = some u

section
variable {w : World} {m : MId} {p q : PId} {x y : Input}

/-- A call has one result. -/
theorem MeanCall.unique {v v' : List ℝ} (h : MeanCall w m p x v) (h' : MeanCall w m p x v') : v = v' := by
  obtain ⟨a, n, ha, hv⟩ := h
  obtain ⟨a', n', ha', hv'⟩ := h'
  rw [ha] at ha'; cases ha'
  have h1 := (ev_le (Nat.le_max_left n n')).M _ _ _ hv
  have h2 := (ev_le (Nat.le_max_right n n')).M _ _ _ hv'
  rw [h1] at h2; exact Option.some.inj h2

/-- A call has one result. -/
theorem KernelCall.unique {A A' : Mat} (h : KernelCall w m p q x y A) (h' : KernelCall w m p q x y A') : A = A' := by
  obtain ⟨a, n, ha, hv⟩ := h
  obtain ⟨a', n', ha', hv'⟩ := h'
  rw [ha] at ha'; cases ha'
  have h1 := (ev_le (Nat.le_max_left n n')).K _ _ _ _ hv
  have h2 := (ev_le (Nat.le_max_right n n')).K _ _ _ _ hv'
  rw [h1] at h2; exact Option.some.inj h2

/-- A call has one result. -/
theorem ElwiseCall.unique {u u' : List ℝ} (h : ElwiseCall w m p q x y u) (h' : ElwiseCall w m p q x y u') :
    u = u' := by
  obtain ⟨a, n, ha, hv⟩ := h
  obtain ⟨a', n', ha', hv'⟩ := h'
  rw [ha] at ha'; cases ha'
  have h1 := (ev_le (Nat.le_max_left n n')).D _ _ _ _ hv
  have h2 := (ev_le (Nat.le_max_right n n')).D _ _ _ _ hv'
  rw [h1] at h2; exact Option.some.inj h2

theorem MeanCall.big {v : List ℝ} (h : MeanCall w m p x v) : numElements x ≤ v.length := by
  obtain ⟨a, n, _, hv⟩ := h
  exact (ev_big n).M _ _ _ hv

theorem KernelCall.big {A : Mat} (h : KernelCall w m p q x y A) : numElements x ≤ A.r ∧ numElements y ≤ A.c := by
  obtain ⟨k, n, _, hA⟩ := h
  exact (ev_big n).K _ _ _ _ hA

end

section
variable {V : Type} [AddCommGroup V] [Module ℝ V] {I : Interp V} {ops : List Op} {m : MId} {p q : PId}
  {x y : Input} {vs ws : List V}

/-- Means are expectations. -/
theorem Interp.Reads.mean (h : I.Reads ops) {v : List ℝ} (hv : MeanCall (runOps ops {}) m p x v)
    (hp : I.F m p x = some vs) : v.length ≤ vs.length ∧ (v.length = vs.length → v = vs.map (I.S m).E) := by
  obtain ⟨a, n, ha, hv⟩ := hv
  have := (h.sound n m).1 p a ha x v _ hv (expect_of hp)
  simpa only [List.length_map] using this

/-- Kernels are covariances. -/
theorem Interp.Reads.kernel (h : I.Reads ops) {A : Mat} (hA : KernelCall (runOps ops {}) m p q x y A)
    (hp : I.F m p x = some vs) (hq : I.F m q y = some ws) : A.Fits (covMat (I.S m) vs ws) := by
  obtain ⟨k, n, hk, hA⟩ := hA
  exact ((h.sound n m).2 p q k hk).K x y A _ hA (cov_of _ hp hq)

/-- Elementwise evaluation gives the diagonal of the covariances. -/
theorem Interp.Reads.elwise (h : I.Reads ops) {u : List ℝ} (hu : ElwiseCall (runOps ops {}) m p q x y u)
    (hp : I.F m p x = some vs) (hq : I.F m q y = some ws) : Mat.FitsD u (covMat (I.S m) vs ws) := by
  obtain ⟨k, n, hk, hu⟩ := hu
  exact ((h.sound n m).2 p q k hk).D x y u _ hu (cov_of _ hp hq)

end

end Stheno
