import Verif.Tensor

/-!
# Batches of normal random variables (`stheno/random.py`)

The computations of the class `Normal` for arrays of any rank. `none` means that the code raises. The functions of `lab` and `matrix` are those of
`Verif/Tensor.lean`; NaN is `none` as an entry of an array.
-/

namespace Stheno

open Matrix
open scoped MatrixOrder

/-- A normal with resolved mean and variance (`stheno/random.py:48-67`), which are arrays. -/
structure BNormal where
  mean : Ten ℝ
  var : Ten ℝ

namespace BNormal
open Ten

/-- `Normal.dim` (`stheno/random.py:194-197`): the number of rows of the variance. -/
def dim (g : BNormal) : Option ℕ :=
  match g.var.shape with
  | _ :: r :: _ => some r
  | _ => none

/-- `Normal.m2` (`stheno/random.py:199-202`). -/
def m2 (g : BNormal) : Option (Ten ℝ) := do zip (· + ·) g.var (← g.mean.squeeze.outer)

/-- `Normal.marginals` (`stheno/random.py:204-227`), for given diagonal of the variance. -/
noncomputable def marginals (g : BNormal) : Option (Ten ℝ × Ten ℝ) := do
  let varDiag ← g.var.diag
  pure (← g.mean.squeezeLast, varDiag.map (max · 0))

/-- `Normal.marginal_credible_bounds` (`stheno/random.py:229-238`). -/
noncomputable def bounds (g : BNormal) : Option (Ten ℝ × Ten ℝ × Ten ℝ) := do
  let (mean, var) ← g.marginals
  let error := var.map fun v => 1.96 * √v
  pure (mean, ← zip (· - ·) mean error, ← zip (· + ·) mean error)

/-- `Normal.diagonalise` (`stheno/random.py:240-246`). -/
def diagonalise (g : BNormal) : Option BNormal := do
  let varDiag ← g.var.diag
  pure ⟨g.mean, ← varDiag.diagMat⟩

/-- `Normal.logpdf` after missing data are handled (`stheno/random.py:272-280`). -/
noncomputable def logpdfFull (g : BNormal) (x : Ten (Option ℝ)) : Option (Ten (Option ℝ)) := do
  let logdet ← g.var.ofMat fun _ A => Real.log A.det
  let n ← g.dim
  let diff ← zip (fun x m => x.map (· - m)) x g.mean
  let s ← zip (· + ·) logdet.newAxis (num (n * Real.log (2 * Real.pi)))
  let s ← zip (fun a b => b.map (a + ·)) s (← iqfDiag g.var diff)
  let logpdfs := s.map (Option.map fun a => -a / 2)
  if logpdfs.shape.head? = some 1 then logpdfs.first else pure logpdfs

/-- The positions of available data in a single column (`stheno/random.py:263`). -/
def available (x : Ten (Option ℝ)) (n : ℕ) : List (Fin n) := (List.finRange n).filter fun i => (x.e [0, i]).isSome

/-- `Normal.logpdf` (`stheno/random.py:248-280`). Missing data are only handled if `x` is a single column without batch dimensions (262). Simplification:
in that case the model raises if the mean or variance have batch dimensions. -/
noncomputable def logpdf (g : BNormal) (x : Ten (Option ℝ)) : Option (Ten (Option ℝ)) :=
  let x := x.uprank
  match x.shape with
  | [1, n] =>
    let is := available x n
    if is.length = n then g.logpdfFull x
    else if g.mean.shape = [1, n] ∧ g.var.shape = [n, n] then
      logpdfFull ⟨⟨[1, is.length], fun i => g.mean.e [0, (is.map (·.val)).getD (i.tail.headD 0) 0]⟩,
        ⟨[is.length, is.length], fun i => g.var.e [(is.map (·.val)).getD (i.headD 0) 0, (is.map (·.val)).getD (i.tail.headD 0) 0]⟩⟩
        ⟨[1, is.length], fun i => x.e [0, (is.map (·.val)).getD (i.tail.headD 0) 0]⟩
    else none
  | _ => g.logpdfFull x

/-- `Normal.entropy` (`stheno/random.py:282-291`). -/
noncomputable def entropy (g : BNormal) : Option (Ten ℝ) := do
  let logdet ← g.var.ofMat fun _ A => Real.log A.det
  let n ← g.dim
  let s ← zip (· + ·) logdet (num (n * (Real.log (2 * Real.pi) + 1)))
  pure (s.map (· / 2))

/-- `Normal.kl` (`stheno/random.py:293-310`). -/
noncomputable def kl (g h : BNormal) : Option (Ten (Option ℝ)) := do
  let diff ← zip (· - ·) h.mean g.mean
  let q ← (← iqfDiag h.var (diff.map some)).first
  let s ← zip (fun a b => a.map (· + b)) q (← ratio g.var h.var)
  let s ← zip (fun a b => a.map (· + b)) s (← h.var.ofMat fun _ A => Real.log A.det)
  let s ← zip (fun a b => a.map (· - b)) s (← g.var.ofMat fun _ A => Real.log A.det)
  let n ← g.dim
  let s ← zip (fun a b => a.map (· - b)) s (num (n : ℝ))
  pure (s.map (Option.map (· / 2)))

/-- `Normal.w2` (`stheno/random.py:312-329`). `B.sum` sums over all axes, also those of the batch. -/
noncomputable def w2 (g h : BNormal) : Option (Ten ℝ) := do
  let varRoot ← g.var.onMat fun _ A => CFC.sqrt A
  let root ← (← mul (← mul varRoot h.var) varRoot).onMat fun _ A => CFC.sqrt A
  let s ← zip (· + ·) (← g.var.ofMat fun _ A => A.trace) (← h.var.ofMat fun _ A => A.trace)
  let varPart ← zip (· - ·) s ((← root.ofMat fun _ A => A.trace).map (2 * ·))
  let meanPart := ((← zip (· - ·) g.mean h.mean).map (· ^ 2)).sum
  let s ← zip (· + ·) meanPart varPart
  pure (s.map fun a => √(max a 0))

/-- `Normal.sample` (`stheno/random.py:331-355`). `z` are the standard normal numbers that are drawn, `root` is the function that computes factors of
variances (contract of `B.sample`), and `meanIsZero` is the property `mean_is_zero`. -/
def sample (root : ∀ n, Matrix (Fin n) (Fin n) ℝ → Matrix (Fin n) (Fin n) ℝ) (g : BNormal) (meanIsZero : Bool) (noise : Option ℝ) (z : Ten ℝ) : Option (Ten ℝ) := do
  let n ← g.dim
  let var ← match noise with
    | none => some g.var
    | some s => zip (· + ·) g.var (fillDiag s n)
  let sample ← mul (← var.onMat root) z
  if meanIsZero then pure sample else zip (· + ·) sample g.mean

/-- `Normal.__add__` with an array (`stheno/random.py:365-367`). -/
def addNum (g : BNormal) (c : Ten ℝ) : Option BNormal := do pure ⟨← zip (· + ·) g.mean c, g.var⟩

/-- `Normal.__add__` with a normal (`stheno/random.py:369-374`). -/
def add (g h : BNormal) : Option BNormal := do pure ⟨← zip (· + ·) g.mean h.mean, ← zip (· + ·) g.var h.var⟩

/-- `Normal.__mul__` with an array (`stheno/random.py:376-381`). -/
def mulNum (g : BNormal) (c : Ten ℝ) : Option BNormal := do pure ⟨← zip (· * ·) g.mean c, ← zip (· * ·) g.var (← zip (· * ·) c c)⟩

/-- `Normal.lmatmul` (`stheno/random.py:383-387`). -/
def lmatmul (g : BNormal) (A : Ten ℝ) : Option BNormal := do pure ⟨← mul A g.mean, ← mul (← mul A g.var) (← A.tr)⟩

/-- `Normal.rmatmul` (`stheno/random.py:389-393`). -/
def rmatmul (g : BNormal) (A : Ten ℝ) : Option BNormal := do
  let At ← A.tr
  pure ⟨← mul At g.mean, ← mul (← mul At g.var) A⟩

end BNormal

end Stheno
