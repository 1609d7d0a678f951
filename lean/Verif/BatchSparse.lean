import Verif.Batch
import Verif.Numerics

/-!
# Batches of observations (`stheno/model/observations.py`, `stheno/model/measure.py`)

The computations with arrays of observations: `_compute` for inducing points, and how values of several FDDs are concatenated and samples of several FDDs are
taken apart. Arrays may have batch dimensions. `none` means that the code raises.
-/

namespace Stheno

open Matrix

namespace Ten
variable {α : Type}

/-- `B.solve(a, b)` -/
noncomputable def solve (a b : Ten ℝ) : Option (Ten ℝ) := do mul (← a.onMat fun _ A => A⁻¹) b

/-- `B.iqf(a, b, c)`: `bᵀ a⁻¹ c`. -/
noncomputable def iqf (a b c : Ten ℝ) : Option (Ten ℝ) := do mul (← mul (← b.tr) (← a.onMat fun _ A => A⁻¹)) c

/-- `B.iqf_diag(a, b)` for `b` without NaNs. -/
noncomputable def iqfDiag' (a b : Ten ℝ) : Option (Ten ℝ) := do pure ((← iqfDiag a (b.map some)).map (·.getD 0))

/-- `B.matmul_diag(a, b, tr_a=True)`: the diagonal of `aᵀ b`. -/
def matmulDiag (a b : Ten ℝ) : Option (Ten ℝ) := do (← mul (← a.tr) b).diag

/-- `B.sum(t, axis=-1)` -/
def sumLast (t : Ten ℝ) : Option (Ten ℝ) :=
  match t.shape with
  | n :: s => some ⟨s, fun d => ∑ i : Fin n, t.get (i :: d)⟩
  | _ => none

/-- `B.ratio(Diagonal(a), Diagonal(b))`: the sums of the quotients of the diagonals. -/
noncomputable def ratioDiag (a b : Ten ℝ) : Option (Ten ℝ) := do (← zip (· / ·) a b).sumLast

/-- The concatenation of two arrays along the rows; `B.concat` does not broadcast. -/
def cat (a b : Ten α) : Option (Ten α) :=
  match a.shape, b.shape with
  | c :: r :: s, c' :: r' :: s' =>
    if c = c' ∧ s = s' then
      some ⟨c :: (r + r') :: s, fun i => if i.tail.headD 0 < r then a.e i else b.e (i.headD 0 :: (i.tail.headD 0 - r) :: i.tail.tail)⟩
    else none
  | _, _ => none

/-- `B.concat(*ts, axis=-2)` -/
def concat : List (Ten α) → Option (Ten α)
  | [] => none
  | [t] => if 2 ≤ t.rank then some t else none
  | t :: ts => do cat t (← concat ts)

/-- `t[..., i : j, :]`, which raises for vectors and numbers. Slices do not raise if they are too long. -/
def rows (t : Ten α) (i j : ℕ) : Option (Ten α) :=
  match t.shape with
  | c :: r :: s => some ⟨c :: (min j r - i) :: s, fun l => t.e (l.headD 0 :: (i + l.tail.headD 0) :: l.tail.tail)⟩
  | _ => none

end Ten

open Ten

/-- The arrays that `_compute` starts with (`stheno/model/observations.py:279-298`): the kernel matrix of the inducing points with their noise, the kernel matrix
of inducing points and inputs, `elwise` of the kernel of the data, the diagonal of the noise, the means, and the values of the data. -/
structure BData where
  Kz : Ten ℝ
  Kzx : Ten ℝ
  kx : Ten ℝ
  noise : Ten ℝ
  mx : Ten ℝ
  mz : Ten ℝ
  y : Ten ℝ

/-- What `_compute` stores, apart from `K_z`. -/
structure BOut where
  A : Ten ℝ
  mu : Ten ℝ
  elbo : Ten ℝ

namespace BData

/-- `diag_correction` (`stheno/model/observations.py:303-306`), as its diagonal. `W` is `iLz_Kzx`. -/
def correction (D : BData) (W : Ten ℝ) : Option (Ten ℝ) := do zip (· - ·) (← D.kx.first) (← matmulDiag W W)

/-- The diagonal of `K_n` and `trace_part` (`stheno/model/observations.py:308-316`). -/
noncomputable def noiseTrace (μ : Method) (D : BData) (W : Ten ℝ) : Option (Ten ℝ × Ten ℝ) :=
  match μ with
  | .vfe => do
    let c ← D.correction W
    let Kn ← zip (· + ·) D.noise (num 0)
    pure (Kn, ← ratioDiag c Kn)
  | .fitc => do pure (← zip (· + ·) D.noise (← D.correction W), num 0)
  | .dtc => do pure (← zip (· + ·) D.noise (num 0), num 0)

/-- `_compute` (`stheno/model/observations.py:300-336`). -/
noncomputable def compute (μ : Method) (D : BData) : Option BOut := do
  let Lz ← D.Kz.onMat fun _ A => chol A
  let W ← solve Lz D.Kzx
  let (Kn, trace) ← D.noiseTrace μ W
  let Kn ← Kn.diagMat
  let Wt ← W.tr
  let n ← D.Kz.shape.head?
  let A ← zip (· + ·) (fillDiag 1 n) (← iqf Kn Wt Wt)
  let LzT ← Lz.tr
  let SA ← mul (← mul Lz A) LzT
  let yBar ← zip (· - ·) D.y.uprank D.mx
  let prod ← iqf Kn Wt yBar
  let mu ← zip (· + ·) D.mz (← iqf A LzT prod)
  let det ← zip (· + ·) (← (Kn.map (2 * Real.pi * ·)).ofMat fun _ A => Real.log A.det) (← A.ofMat fun _ A => Real.log A.det)
  let q ← zip (· - ·) (← (← iqfDiag' Kn yBar).first) (← (← iqfDiag' A prod).first)
  let s ← zip (· + ·) (← zip (· + ·) det q) trace
  pure ⟨SA, mu, s.map (-(1 / 2) * ·)⟩

end BData

/-- `PosteriorMean(m_i, m_z, k_zi, z, K_z, y)` at inputs (contract of `mlkernels`, called at `stheno/model/observations.py:161-168, 270-277`): `mi` and `mz` are the means at the
inputs and at `z`, and `Kzi` is the kernel matrix between them. -/
noncomputable def bPostMean (mi mz Kzi Kz y : Ten ℝ) : Option (Ten ℝ) := do zip (· + ·) mi (← iqf Kz Kzi (← zip (· - ·) y mz))

/-- `PosteriorKernel(k_ij, k_zi, k_zj, z, K_z)` at inputs (contract of `mlkernels`, called at `stheno/model/observations.py:148-154, 256-262`). -/
noncomputable def bPostKernel (Kij Kzi Kzj Kz : Ten ℝ) : Option (Ten ℝ) := do zip (· - ·) Kij (← iqf Kz Kzi Kzj)

/-- `PosteriorKernel(...) + SubspaceKernel(...)` (`stheno/model/observations.py:255-267`). -/
noncomputable def bSparseKernel (Kij Kzi Kzj Kz A : Ten ℝ) : Option (Ten ℝ) := do zip (· + ·) (← bPostKernel Kij Kzi Kzj Kz) (← iqf A Kzi Kzj)

/-- The mean and kernel of a posterior with exact observations at inputs, including `K_x` (`stheno/model/observations.py:127-168`). -/
noncomputable def bPosterior (mi mx Kij Kxi Kxj Kx noise y : Ten ℝ) : Option (Ten ℝ × Ten ℝ) := do
  let Kx ← zip (· + ·) Kx noise
  pure (← bPostMean mi mx Kxi Kx y.uprank, ← bPostKernel Kij Kxi Kxj Kx)

/-- The mean and kernel of a posterior with inducing points at inputs (`stheno/model/observations.py:255-277`). -/
noncomputable def BData.posterior (μ : Method) (D : BData) (mi Kij Kzi Kzj : Ten ℝ) : Option (Ten ℝ × Ten ℝ) := do
  let r ← D.compute μ
  pure (← bPostMean mi D.mz Kzi D.Kz r.mu, ← bSparseKernel Kij Kzi Kzj D.Kz r.A)

/-- `combined_y` of `combine` (`stheno/model/observations.py:46`). -/
def combineValues {α : Type} (ys : List (Ten α)) : Option (Ten α) := concat (ys.map uprank)

/-- How `Measure.sample` takes a sample apart (`stheno/model/measure.py:440-446`), from the row `i` on. -/
def unpack {α : Type} (sample : Ten α) (i : ℕ) : List ℕ → Option (List (Ten α))
  | [] => some []
  | l :: ls => do pure ((← sample.rows i (i + l)) :: (← unpack sample (i + l) ls))

end Stheno
