import Mathlib.Analysis.Matrix.Order
import Mathlib.Analysis.SpecialFunctions.ContinuousFunctionalCalculus.Rpow.Basic
import Verif.Numerics

/-!
# Normal random variables (`stheno/random.py`)

The computations of the class `Normal` on a resolved mean and variance. How mean and variance are resolved lazily is modelled in
`Verif/NormalState.lean`.

The functions of `lab` and `matrix` are replaced by what they compute over the reals: `logdet`, `iqf_diag(K, x) = xᵀ K⁻¹ x`,
`ratio(A, B) = tr(B⁻¹ A)`, `root(A)` the positive semi-definite square root. The jitter of Cholesky factors, data types, batches
and broadcasting are not modelled here: sizes are part of the types. `Verif/Batch.lean` has batches.
-/

namespace Stheno

open Matrix
open scoped MatrixOrder

/-- A normal with resolved mean and variance (`stheno/random.py:48-67`). -/
structure Normal (n : ℕ) where
  mean : Fin n → ℝ
  var : Matrix (Fin n) (Fin n) ℝ

namespace Normal
variable {n k : ℕ}

/-- `Normal.m2` (`stheno/random.py:199-202`). -/
def m2 (g : Normal n) : Matrix (Fin n) (Fin n) ℝ := g.var + vecMulVec g.mean g.mean

/-- `Normal.var_diag` if there is no separate constructor for it (`stheno/random.py:112-117`). -/
def varDiag (g : Normal n) : Fin n → ℝ := g.var.diag

/-- `Normal.marginals` (`stheno/random.py:204-227`), for given diagonal of the variance. -/
noncomputable def marginals (g : Normal n) : (Fin n → ℝ) × (Fin n → ℝ) := (g.mean, fun i => max (g.varDiag i) 0)

/-- `Normal.marginal_credible_bounds` (`stheno/random.py:229-238`). -/
noncomputable def bounds (g : Normal n) : (Fin n → ℝ) × (Fin n → ℝ) × (Fin n → ℝ) :=
  let mv := g.marginals
  let error := fun i => 1.96 * √(mv.2 i)
  (mv.1, fun i => mv.1 i - error i, fun i => mv.1 i + error i)

/-- `Normal.diagonalise` (`stheno/random.py:240-246`). -/
def diagonalise (g : Normal n) : Normal n := ⟨g.mean, diagonal g.varDiag⟩

/-- `Normal.logpdf` without missing data, for one column (`stheno/random.py:272-280`). -/
noncomputable def logpdfFull (g : Normal n) (x : Fin n → ℝ) : ℝ :=
  -(Real.log g.var.det + n * Real.log (2 * Real.pi) + (x - g.mean) ⬝ᵥ (g.var⁻¹ *ᵥ (x - g.mean))) / 2

/-- `B.take(self.mean, available)` and `B.submatrix(self.var, available)` (`stheno/random.py:267-268`), where `is` are the positions
of the available data. -/
def sub (g : Normal n) (is : List (Fin n)) : Normal is.length :=
  ⟨fun i => g.mean (is.get i), fun i j => g.var (is.get i) (is.get j)⟩

/-- `Normal.logpdf` for one column (`stheno/random.py:248-280`). NaN is `none`. -/
noncomputable def logpdf (g : Normal n) (x : Fin n → Option ℝ) : ℝ :=
  if ∀ i, (x i).isSome then g.logpdfFull fun i => (x i).getD 0
  else
    let is := (List.finRange n).filter fun i => (x i).isSome
    (g.sub is).logpdfFull fun i => (x (is.get i)).getD 0

/-- What `Normal.logpdf` returns: a number or a vector. NaN is `none`. -/
inductive Logpdfs
  | one (l : ℝ)
  | many (ls : List (Option ℝ))

/-- `Normal.logpdf` for any number of columns (`stheno/random.py:248-280`): missing data are only handled if there is one column, and the result is
only flattened if there is one column (280). NaNs in a column propagate to the log-density of that column (contract of `B.iqf_diag`, which
works on every column separately). Simplification: no batches; `Batch.lean` has them. -/
noncomputable def logpdfs (g : Normal n) : List (Fin n → Option ℝ) → Logpdfs
  | [x] => .one (g.logpdf x)
  | xs => .many (xs.map fun x => if ∀ i, (x i).isSome then some (g.logpdfFull fun i => (x i).getD 0) else none)

/-- `Normal.entropy` (`stheno/random.py:282-291`). -/
noncomputable def entropy (g : Normal n) : ℝ := (Real.log g.var.det + n * (Real.log (2 * Real.pi) + 1)) / 2

/-- `Normal.kl` (`stheno/random.py:293-310`). -/
noncomputable def kl (g h : Normal n) : ℝ :=
  ((h.mean - g.mean) ⬝ᵥ (h.var⁻¹ *ᵥ (h.mean - g.mean)) + (h.var⁻¹ * g.var).trace + Real.log h.var.det - Real.log g.var.det - n) / 2

/-- `Normal.w2` (`stheno/random.py:312-329`). -/
noncomputable def w2 (g h : Normal n) : ℝ :=
  let varRoot := CFC.sqrt g.var
  let root := CFC.sqrt (varRoot * h.var * varRoot)
  let varPart := g.var.trace + h.var.trace - 2 * root.trace
  let meanPart := ∑ i, (g.mean i - h.mean i) ^ 2
  √(max (meanPart + varPart) 0)

/-- The variance from which `Normal.sample` samples (`stheno/random.py:344-351`). -/
def noisyVar (g : Normal n) (noise : Option ℝ) : Matrix (Fin n) (Fin n) ℝ :=
  match noise with
  | none => g.var
  | some s => g.var + diagonal fun _ => s

/-- `Normal.sample` (`stheno/random.py:331-355`). `zs` are the standard normal numbers that are drawn, `root` is the function that
computes a factor of the variance (contract of `B.sample`: it returns a factor times standard normal numbers), and `meanIsZero` is
the property `mean_is_zero`. -/
def sample (root : Matrix (Fin n) (Fin n) ℝ → Matrix (Fin n) (Fin n) ℝ) (g : Normal n) (meanIsZero : Bool) (noise : Option ℝ)
    (zs : Fin k → Fin n → ℝ) (s : Fin k) : Fin n → ℝ :=
  let sample := root (g.noisyVar noise) *ᵥ zs s
  if meanIsZero then sample else sample + g.mean

/-- `Normal.__add__` with a vector (`stheno/random.py:365-367`); numbers are broadcast. -/
def addVec (g : Normal n) (c : Fin n → ℝ) : Normal n := ⟨g.mean + c, g.var⟩

/-- `Normal.__add__` with a normal (`stheno/random.py:369-374`). -/
def add (g h : Normal n) : Normal n := ⟨g.mean + h.mean, g.var + h.var⟩

/-- `Normal.__mul__` with a number (`stheno/random.py:376-381`). -/
def mul (g : Normal n) (c : ℝ) : Normal n := ⟨fun i => g.mean i * c, of fun i j => g.var i j * (c * c)⟩

/-- `Normal.__mul__` with a column vector (`stheno/random.py:376-381`): `B.multiply` broadcasts it along the columns of the
variance. -/
def mulVec (g : Normal n) (c : Fin n → ℝ) : Normal n := ⟨fun i => g.mean i * c i, of fun i j => g.var i j * (c i * c i)⟩

/-- `Normal.lmatmul` (`stheno/random.py:383-387`). -/
def lmatmul (g : Normal n) (A : Matrix (Fin k) (Fin n) ℝ) : Normal k := ⟨A *ᵥ g.mean, A * g.var * Aᵀ⟩

/-- `Normal.rmatmul` (`stheno/random.py:389-393`). -/
def rmatmul (g : Normal n) (A : Matrix (Fin n) (Fin k) ℝ) : Normal k := ⟨Aᵀ *ᵥ g.mean, Aᵀ * g.var * A⟩

/-- `Random.__radd__` (`stheno/random.py:18-19`). -/
def radd (c : Fin n → ℝ) (g : Normal n) : Normal n := g.addVec c

/-- `Random.__rmul__` (`stheno/random.py:21-22`). -/
def rmul (c : ℝ) (g : Normal n) : Normal n := g.mul c

/-- `Random.__neg__` (`stheno/random.py:24-25`). -/
def neg (g : Normal n) : Normal n := rmul (-1) g

/-- `Random.__sub__` with a vector (`stheno/random.py:27-28`). -/
def subVec (g : Normal n) (c : Fin n → ℝ) : Normal n := g.addVec (-c)

/-- `Random.__sub__` with a normal (`stheno/random.py:27-28`). -/
def subNormal (g h : Normal n) : Normal n := g.add h.neg

/-- `Random.__rsub__` (`stheno/random.py:30-31`). -/
def rsub (c : Fin n → ℝ) (g : Normal n) : Normal n := g.neg.addVec c

/-- `Random.__truediv__` with a number (`stheno/random.py:33-37`). -/
noncomputable def div (g : Normal n) (c : ℝ) : Normal n := g.mul (1 / c)

end Normal

end Stheno
