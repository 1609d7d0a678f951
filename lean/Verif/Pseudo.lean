import Verif.Cache
import Verif.Fdd

/-!
# Making pseudo-observations

The model of the constructors of `PseudoObservations`, `PseudoObservationsFITC` and `PseudoObservationsDTC`
(`stheno/model/observations.py:181-192, 356-404`).
-/

namespace Stheno

/-- The first argument: an FDD, or a tuple of FDDs. -/
inductive UArg where
  | one (f : Fdd)
  | many (fs : List Fdd)

/-- The FDD of inducing points (`stheno/model/observations.py:190-192`). -/
noncomputable def mkU (w : World) (ord : List MId) : UArg → Option (List Op × Fdd)
  | .one f => some ([], f)
  | .many fs => do
    let (o, f) ← combine w ord fs
    pure ([o], f)

/-- `PseudoObservations(us, *args)` (`stheno/model/observations.py:181-192`): the operations on the graph, and the observations. `diag` is
whether the noise of the data is of class `Diagonal`. -/
noncomputable def mkPseudo (w : World) (n : ℕ) (ord ord' : List MId) (μ : Method) (diag : Bool) (us : UArg) (as : List Arg) :
    Option (List Op × Obs) := do
  let (os, u) ← mkU w ord us
  let (os', o) ← mkObs (runOps os w) n ord' as
  match o with
  | .exact p x noise y => pure (os ++ os', .pseudo u.p p ⟨μ, u.x, u.noise, x, ⟨noise, diag⟩, y⟩)
  | .pseudo _ _ _ => none

/-- `measure.logpdf(obs)` for pseudo-observations (`stheno/model/measure.py:487-489`), where `d` is what the object has kept. -/
noncomputable def logpdfPseudo (w : World) (m : MId) (d : Kept) : Obs → Option ℝ
  | .pseudo pu p o => (getElbo w pu p o m d).2
  | .exact _ _ _ _ => none

end Stheno
