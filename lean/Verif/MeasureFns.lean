import Verif.Fdd
import Verif.NormalState

/-!
# Log-densities and samples under a measure

The model of `Measure.__call__` for FDDs, `Measure.logpdf` and `Measure.sample` (`stheno/model/measure.py:139-154, 425-489`).
-/

namespace Stheno

/-- `measure(fdd)` (`stheno/model/measure.py:139-154`): the operation on the graph, and the resulting FDD. -/
noncomputable def callFdd (w : World) (m : MId) (f : Fdd) : Option (Op × Fdd) :=
  let o := Op.call m f.p
  match o.raises w with
  | some _ => none
  | none => do pure (o, ← mkFdd (o.after w) w.gps.length f.x (.mat f.noise))

/-- The mean `v` and the variance `V` of an FDD (`stheno/model/fdd.py:65-83`). -/
def FddNormal (w : World) (f : Fdd) (v : List ℝ) (V : Mat) : Prop :=
  ∃ m K, gpMeasure w f.p = some m ∧ MeanCall w m f.p f.x v ∧ KernelCall w m f.p f.p f.x f.x K ∧ K.add f.noise = some V

/-- `fdd.logpdf(y)` (`stheno/random.py:248-280`) returns `r`. The determinant and the quadratic form are computed from a Cholesky factor of the
variance of the available data, which must hence be positive definite (contract of `lab`). -/
structure FddLogpdf (w : World) (f : Fdd) (y : Vals) (r : ℝ) : Prop where
  ret : ∃ v V, FddNormal w f v V ∧ V.c = V.r ∧ v.length = V.r ∧ y.length = V.r ∧
    ((asNormal (.col v) V).sub ((List.finRange V.r).filter fun i => (y.getD i none).isSome)).var.PosDef ∧
    r = (asNormal (.col v) V).logpdf fun i => y.getD i none

/-- `measure.logpdf(*args)` for anything but pseudo-observations (`stheno/model/measure.py:463-485`): the operations on the graph, and the FDD
and the data of which the log-density is returned. -/
noncomputable def logpdfArgs (w : World) (ord : List MId) (m : MId) : List Arg → Option (List Op × Fdd × Vals)
  | [.fdd f, .vals y] => do
    let (o, f) ← callFdd w m f
    pure ([o], f, y)
  | [.obs (.exact p x noise y)] => do
    let (o, f) ← callFdd w m ⟨p, x, noise⟩
    pure ([o], f, y.map some)
  | as => do
    let l ← pairs? as
    let (o, f) ← combine w ord (l.map (·.1))
    let (o', f) ← callFdd (o.after w) m f
    pure ([o, o'], f, l.flatMap (·.2))

/-- The loop in `Measure.sample` over the numbers of elements (`stheno/model/measure.py:442-446`), from row `i` on. -/
def splitRows {α : Type} (s : List α) : ℕ → List ℕ → List (List α)
  | _, [] => []
  | i, n :: ns => (s.drop i).take n :: splitRows s (i + n) ns

/-- `measure.sample(state, n, *fdds)` (`stheno/model/measure.py:425-446`): the operations on the graph, and the FDD that is sampled. -/
noncomputable def sampleArgs (w : World) (ord : List MId) (m : MId) (fs : List Fdd) : Option (List Op × Fdd) := do
  let (o, f) ← combine w ord fs
  let (o', f) ← callFdd (o.after w) m f
  pure ([o, o'], f)

/-- What `measure.sample` returns from a sample (rows of numbers) of that FDD (`stheno/model/measure.py:440-446`). -/
def sampleResult {α : Type} (fs : List Fdd) (sample : List α) : List (List α) :=
  splitRows sample 0 (fs.map fun f => numElements f.x)

end Stheno
