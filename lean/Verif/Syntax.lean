import Mathlib.Data.Real.Basic

/-!
# Syntax: inputs, means, kernels, observations, rules

Kernels and means in `mlkernels` are expression trees; so they are here. Leaves are arbitrary
functions. Python closures that are stored in lazy tables are defunctionalised (`LRule`, `RRule`,
`URule`).
-/

namespace Stheno

/-- Identity of a GP object (`id(p)`), numbered in creation order. -/
macro "PId" : term => `(Nat)
/-- Identity of a measure object (`id(measure)`), numbered in creation order. -/
macro "MId" : term => `(Nat)
/-- One input location: a row of features. A one-dimensional array of `n` inputs is `n` rows with
one feature. -/
abbrev Pt := List ℝ

/-- A matrix: number of rows, number of columns, entries. Entries outside of the range are junk and
are never looked at. Structured matrices (`matrix.Zero`, `Diagonal`, ...) are represented by their
entries. -/
structure Mat where
  r : ℕ
  c : ℕ
  e : ℕ → ℕ → ℝ

/-- Inputs of means and kernels (`stheno/mo/*.py` dispatches on exactly these three cases):
numeric arrays (`B.Numeric`), FDDs (`stheno/model/fdd.py:44-93`) and tuples. Only the process and the
input of an FDD matter when it is used as an input, so noise is not recorded. -/
inductive Input where
  | num (xs : List Pt)
  | fdd (p : PId) (x : Input)
  | tup (xs : List Input)

/-- Amounts for `shift` and `stretch`: a scalar or one amount per feature. -/
inductive Amt where
  | scalar (c : ℝ)
  | vec (cs : List ℝ)

/-- Functions that multiply or are added to processes: user functions (`FunctionType`, applied to each
row), constants, and `lambda x: self.means[p](x)` (`stheno/model/measure.py:258-259`). The function
`ones` (`stheno/model/measure.py:243-244`) is `Fn.const 1`. -/
inductive Fn where
  | user (f : Pt → ℝ)
  | const (c : ℝ)
  | meanOf (m : MId) (p : PId)

/-- Input transformations carried by shifted, stretched, selected and input-transformed functions.
`none` stands for Python's `None` (no transformation); `toFdd j` is `lambda y: FDD(j, y)`
(`stheno/model/measure.py:422`). -/
inductive InTr where
  | none
  | shift (a : Amt)
  | stretch (a : Amt)
  | select (dims : List ℕ)
  | map (g : Pt → Pt)
  | toFdd (j : PId)

/-- A noise matrix with the information whether its class is `matrix.Diagonal`
(needed by `stheno/model/observations.py:293`). -/
structure Noise where
  mat : Mat
  isDiagonal : Bool

/-- Approximation methods (`stheno/model/observations.py:356-404`). -/
inductive Method where
  | vfe | fitc | dtc

/-- The numerical content of pseudo-observations (`stheno/model/observations.py:181-188`): inducing
inputs with noise, observed inputs with noise, observed values. -/
structure PseudoData where
  method : Method
  z : Input
  noiseZ : Mat
  x : Input
  noiseX : Noise
  y : List ℝ

/-- Kernels. `prim` covers every `mlkernels` kernel a user can write without reference to a measure;
`mok` is `MultiOutputKernel(measure, *ps)` (`stheno/mo/kernel.py:14-32`), `adk` is
`AmbiguousDimensionalityKernel` (`stheno/mo/adk.py:14`), `tprod` is `TensorProductKernel(f, g)`,
`pre` is a shifted, stretched, selected or input-transformed kernel with the two input
transformations, `diff` a derivative kernel.

`post` is `PosteriorKernel(k_ij, k_zi, k_zj, z, K_z)` where the matrix `K_z` is recorded as the kernel
`kzz` and the noise it was computed from (`stheno/model/observations.py:139`): `K_z = kzz(z) + noise`.
`pseudo` is `PosteriorKernel(...) + SubspaceKernel(...)` of `stheno/model/observations.py:256-267`, where
the matrices are recorded as the kernels and data that `_compute` (279-330) computes them from. -/
inductive KExpr where
  | prim (k : Pt → Pt → ℝ)
  | zero
  | mok (m : MId) (ps : List PId)
  | adk (k : KExpr)
  | add (a b : KExpr)
  | mul (a b : KExpr)
  | scale (c : ℝ) (k : KExpr)
  | tprod (f g : Fn)
  | rev (k : KExpr)
  | pre (t u : InTr) (k : KExpr)
  | diff (d e : Option ℕ) (k : KExpr)
  | post (kij kzi kzj : KExpr) (z : Input) (kzz : KExpr) (noise : Mat)
  | pseudo (kij kzi kzj kzz kzx kxx : KExpr) (o : PseudoData)

/-- Mean functions. `fn` is `TensorProductMean(f)` or a multiple of `OneMean()`; `mom` is
`MultiOutputMean` (`stheno/mo/mean.py:9-25`); `post` is `PosteriorMean(m_i, m_z, k_zi, z, K_z, y)` and
`pseudo` the same with the optimal mean of `_compute` (`stheno/model/observations.py:270-277`), with
`K_z` and `mu` recorded by what they are computed from. -/
inductive MExpr where
  | zero
  | fn (f : Fn)
  | mom (m : MId) (ps : List PId)
  | add (a b : MExpr)
  | mul (a b : MExpr)
  | scale (c : ℝ) (a : MExpr)
  | pre (t : InTr) (a : MExpr)
  | diff (d : ℕ) (a : MExpr)
  | post (mi mz : MExpr) (kzi : KExpr) (z : Input) (kzz : KExpr) (noise : Mat) (y : List ℝ)
  | pseudo (mi mz mx : MExpr) (kzi kzz kzx kxx : KExpr) (o : PseudoData)

/-! Arithmetic on kernels. The `algebra` package simplifies terms that involve the zero function:
`0 + k = k`, `0 * k = 0`, and scalings, reversals, input transformations and derivatives of zero are
zero. These simplifications matter because a zero kernel does not know the number of outputs; all other
simplifications of `algebra` are value-neutral and not modelled. -/

/-- `a + b` for kernels. -/
def kadd (a b : KExpr) : KExpr :=
  match a, b with
  | .zero, b => b
  | a, .zero => a
  | a, b => .add a b

/-- `a * b` for kernels. -/
def kmul (a b : KExpr) : KExpr :=
  match a, b with
  | .zero, _ => .zero
  | _, .zero => .zero
  | a, b => .mul a b

/-- `k * c` for a scalar `c`. -/
def kscale (c : ℝ) (k : KExpr) : KExpr :=
  match k with
  | .zero => .zero
  | k => .scale c k

/-- `reversed(k)`. -/
def krev (k : KExpr) : KExpr :=
  match k with
  | .zero => .zero
  | k => .rev k

/-- `k.shift(a, b)`, `k.stretch(a, b)`, `k.select(a, b)`, `k.transform(a, b)`. -/
def kpre (t u : InTr) (k : KExpr) : KExpr :=
  match k with
  | .zero => .zero
  | k => .pre t u k

/-- `k.diff(a, b)`. -/
def kdiff (d e : Option ℕ) (k : KExpr) : KExpr :=
  match k with
  | .zero => .zero
  | k => .diff d e k

/-- Observations as far as the rules of a posterior measure need them
(`stheno/model/observations.py:143-168, 255-277`). `exact` is `Observations`, `pseudo` an
`AbstractPseudoObservations`: `p` is `self.fdd.p`, `pu` is `self.u.p`. -/
inductive Obs where
  | exact (p : PId) (x : Input) (noise : Mat) (y : List ℝ)
  | pseudo (pu p : PId) (o : PseudoData)

/-- Bodies of left rules `lambda j: ...` (`stheno/model/measure.py`): `look p` is `self.kernels[p, j]`,
`lookR p` is `self.kernels[j, p]`, `fn f` is any function of `j`, `map2 f a b` is any function of `j` and of what two
rules return (only rules given by users need `fn`, `map2` and `const`), `tmul f g a` is `TensorProductKernel(f, g) * a`, `cross m ps` is
`ADK(mok.transform(None, lambda y: FDD(j, y)))` (line 422). -/
inductive LRule where
  | zero
  | const (k : KExpr)
  | fn (f : PId → KExpr)
  | map2 (f : PId → KExpr → KExpr → KExpr) (a b : LRule)
  | look (p : PId)
  | lookR (p : PId)
  | add (a b : LRule)
  | scale (c : ℝ) (a : LRule)
  | tmul (f g : Fn) (a : LRule)
  | pre (t u : InTr) (a : LRule)
  | diff (d e : Option ℕ) (a : LRule)
  | cross (m : MId) (ps : List PId)

/-- Bodies of right rules `lambda i: ...`: `rev p` is `reversed(self.kernels[p, i])` (line 111),
`look p` is `self.kernels[i, p]` (line 149), `zero` is `ZeroKernel()` (line 173). -/
inductive RRule where
  | zero
  | rev (p : PId)
  | look (p : PId)

/-- The universal rule of a posterior measure: `lambda i, j: obs.posterior_kernel(self, i, j)` and
`lambda i: obs.posterior_mean(self, i)` (`stheno/model/measure.py:376-379`); `prior` is `self`. -/
structure URule where
  prior : MId
  obs : Obs

mutual
/-- `num_elements` for numeric inputs (number of rows, contract of `mlkernels`), FDDs
(`stheno/model/fdd.py:120-122`) and tuples (`stheno/mo/infer.py:16-18`). -/
def numElements : Input → ℕ
  | .num xs => xs.length
  | .fdd _ x => numElements x
  | .tup xs => numElementsL xs
/-- The sum over a tuple (`stheno/mo/infer.py:16-18`). -/
def numElementsL : List Input → ℕ
  | [] => 0
  | x :: xs => numElements x + numElementsL xs
end

end Stheno
