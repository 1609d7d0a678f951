import Verif.Calls
import Verif.EvalMono
import Verif.Props.Graph

/-!
# C05 for calls

Calls of means and kernels return the same after a model was extended.
-/

namespace Stheno

section
variable {m : MId} {p q : PId} {x x' : Input}

theorem lookups_extend (ops later : List Op) (n : ℕ) :
    (ev (meanAt (runOps ops {})) (kernelAt (runOps ops {})) n).Le (ev (meanAt (runOps (ops ++ later) {})) (kernelAt (runOps (ops ++ later) {})) n) :=
  ev_mono (fun m p => fun f => (C05_extension ops later m p p).2.1 f) (fun m p q => fun k => (C05_extension ops later m p q).1 k) n

/-- **C05, calls.** A call of a mean returns the same after the model was extended. -/
theorem C05_mean_call {ops later : List Op} {v : List ℝ} (h : MeanCall (runOps ops {}) m p x v) : MeanCall (runOps (ops ++ later) {}) m p x v := by
  obtain ⟨a, n, ha, hv⟩ := h
  exact ⟨a, n, (C05_extension ops later m p p).2.1 _ ha, (lookups_extend ops later n).M _ _ _ hv⟩

/-- **C05, calls.** A call of a kernel returns the same after the model was extended. -/
theorem C05_kernel_call {ops later : List Op} {A : Mat} (h : KernelCall (runOps ops {}) m p q x x' A) :
    KernelCall (runOps (ops ++ later) {}) m p q x x' A := by
  obtain ⟨a, n, ha, hv⟩ := h
  exact ⟨a, n, (C05_extension ops later m p q).1 _ ha, (lookups_extend ops later n).K _ _ _ _ hv⟩

/-- **C05, calls.** An elementwise call of a kernel returns the same after the model was extended. -/
theorem C05_elwise_call {ops later : List Op} {u : List ℝ} (h : ElwiseCall (runOps ops {}) m p q x x' u) :
    ElwiseCall (runOps (ops ++ later) {}) m p q x x' u := by
  obtain ⟨a, n, ha, hv⟩ := h
  exact ⟨a, n, (C05_extension ops later m p q).1 _ ha, (lookups_extend ops later n).D _ _ _ _ hv⟩

end

end Stheno
