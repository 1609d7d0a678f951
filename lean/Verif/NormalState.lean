import Verif.Normal
import Verif.Fdd

/-!
# Lazy normals (`stheno/random.py`)

How `Normal` resolves its mean, its variance, and the diagonal of the variance, and what it remembers. Functions that construct are
functions without effects that return the same on every call, or always raise. `convert(_, AbstractMatrix)` in `_resolve_var` changes
the representation of a matrix only, and is not modelled.
-/

namespace Stheno

/-- A mean: the number `0`, a matrix of type `Zero`, or any other column. -/
inductive MeanVal where
  | zero
  | zeroMat (n : ℕ)
  | col (xs : List ℝ)

/-- `identical(mean, 0)`. -/
def MeanVal.isNumber : MeanVal → Bool
  | .zero => true
  | _ => false

/-- `identical(self._mean, 0)` or `isinstance(self._mean, Zero)` (`stheno/random.py:100-102`). -/
def MeanVal.isZero : MeanVal → Bool
  | .zero | .zeroMat _ => true
  | .col _ => false

/-- The functions that are given to a lazy normal (`stheno/random.py:72-90`). The outer `Option` of the last three is whether there is
one; otherwise `none` is an exception. -/
structure Ctors where
  mean : Option MeanVal
  var : Option Mat
  varDiag : Option (Option (List ℝ))
  meanVar : Option (Option (MeanVal × Mat))
  meanVarDiag : Option (Option (MeanVal × List ℝ))

/-- The attributes of a normal, and how often the functions were called. -/
structure NState where
  mean : Option MeanVal := none
  meanIsZero : Option Bool := none
  var : Option Mat := none
  varDiag : Option (List ℝ) := none
  nMean : ℕ := 0
  nVar : ℕ := 0
  nVarDiag : ℕ := 0
  nMeanVar : ℕ := 0
  nMeanVarDiag : ℕ := 0

/-- `Normal(lambda: ..., lambda: ...)` (`stheno/random.py:72-94`). -/
def NState.lazy : NState := {}

/-- `Normal(mean, var)` (`stheno/random.py:56-70`). -/
def NState.eager (μ : MeanVal) (V : Mat) : NState := { mean := some μ, var := some V }

/-- Python code that works on the attributes of a normal and may raise. -/
def NM (α : Type) : Type := NState → Option α × NState

namespace NM

instance : Monad NM where
  pure a := fun s => (some a, s)
  bind x f := fun s =>
    match x s with
    | (some a, s') => f a s'
    | (none, s') => (none, s')

/-- The attributes. -/
def read : NM NState := fun s => (some s, s)

/-- Change attributes. -/
def change (f : NState → NState) : NM Unit := fun s => (some (), f s)

/-- Return a value or raise an exception. -/
def give {α : Type} (a : Option α) : NM α := fun s => (a, s)

end NM

/-- The diagonal of a matrix, `B.diag`. -/
def Mat.diagonal (V : Mat) : List ℝ := (List.range V.r).map fun i => V.e i i

namespace NState
variable (c : Ctors)

/-- `_resolve_var` (`stheno/random.py:106-110`). -/
def resolveVar : NM Unit := do
  if (← NM.read).var.isNone then
    NM.change fun s => { s with nVar := s.nVar + 1 }
    let v ← NM.give c.var
    NM.change fun s => { s with var := some v }

/-- `var` (`stheno/random.py:161-165`). -/
def getVar : NM Mat := do
  resolveVar c
  NM.give (← NM.read).var

/-- `_resolve_mean` (`stheno/random.py:96-104`). `self.dim` is the number of rows of the variance (`stheno/random.py:194-197`). -/
def resolveMean (constructZeros : Bool) : NM Unit := do
  if (← NM.read).mean.isNone then
    NM.change fun s => { s with nMean := s.nMean + 1 }
    let m ← NM.give c.mean
    NM.change fun s => { s with mean := some m }
  if (← NM.read).meanIsZero.isNone then
    NM.change fun s => { s with meanIsZero := s.mean.map MeanVal.isZero }
  if (← NM.read).mean.any MeanVal.isNumber && constructZeros then
    let v ← getVar c
    NM.change fun s => { s with mean := some (.col (List.replicate v.r 0)) }

/-- `_resolve_var_diag` (`stheno/random.py:112-117`). -/
def resolveVarDiag : NM Unit := do
  if (← NM.read).varDiag.isNone then
    match c.varDiag with
    | some d =>
      NM.change fun s => { s with nVarDiag := s.nVarDiag + 1 }
      let d ← NM.give d
      NM.change fun s => { s with varDiag := some d }
    | none =>
      let v ← getVar c
      NM.change fun s => { s with varDiag := some v.diagonal }

/-- `mean` (`stheno/random.py:149-153`). -/
def getMean : NM MeanVal := do
  resolveMean c true
  NM.give (← NM.read).mean

/-- `mean_is_zero` (`stheno/random.py:155-159`). -/
def getMeanIsZero : NM Bool := do
  resolveMean c false
  NM.give (← NM.read).meanIsZero

/-- `var_diag` (`stheno/random.py:167-171`). -/
def getVarDiag : NM (List ℝ) := do
  resolveVarDiag c
  NM.give (← NM.read).varDiag

/-- `mean_var` (`stheno/random.py:173-187`). -/
def getMeanVar : NM (MeanVal × Mat) := do
  match (← NM.read).mean, (← NM.read).var with
  | some m, some v => pure (m, v)
  | some m, none => pure (m, ← getVar c)
  | none, some v => pure (← getMean c, v)
  | none, none => do
    match c.meanVar with
    | some f =>
      NM.change fun s => { s with nMeanVar := s.nMeanVar + 1 }
      let (m, v) ← NM.give f
      NM.change fun s => { s with mean := some m, var := some v }
      resolveMean c true
      resolveVar c
    | none => pure ()
    let m ← getMean c
    let v ← getVar c
    pure (m, v)

/-- `B.squeeze(B.dense(mean), axis=-1)` (`stheno/random.py:225`). A number has no last axis, so that this raises for the number `0`. -/
def squeeze : MeanVal → Option (List ℝ)
  | .zero => none
  | .zeroMat n => some (List.replicate n 0)
  | .col xs => some xs

/-- `marginals` (`stheno/random.py:204-227`). -/
noncomputable def getMarginals : NM (List ℝ × List ℝ) := do
  let (m, d) ←
    match (← NM.read).mean, (← NM.read).varDiag with
    | some m, some d => pure (m, d)
    | some m, none => do pure (m, ← getVarDiag c)
    | none, some d => do pure (← getMean c, d)
    | none, none => do
      match c.meanVarDiag with
      | some f =>
        NM.change fun s => { s with nMeanVarDiag := s.nMeanVarDiag + 1 }
        let (m, d) ← NM.give f
        NM.change fun s => { s with mean := some m, varDiag := some d }
        resolveMean c true
      | none => pure ()
      let m ← getMean c
      let d ← getVarDiag c
      pure (m, d)
  let m ← NM.give (squeeze m)
  pure (m, d.map (max · 0))

end NState

/-- The ways in which methods look at a normal. -/
inductive Access where
  | mean | meanIsZero | var | varDiag | meanVar | marginals
deriving DecidableEq

/-- What they see. -/
inductive Seen where
  | mean (m : MeanVal)
  | meanIsZero (b : Bool)
  | var (v : Mat)
  | varDiag (d : List ℝ)
  | meanVar (m : MeanVal) (v : Mat)
  | marginals (m d : List ℝ)

/-- One access. -/
noncomputable def Access.run (c : Ctors) : Access → NM Seen
  | .mean => .mean <$> NState.getMean c
  | .meanIsZero => .meanIsZero <$> NState.getMeanIsZero c
  | .var => .var <$> NState.getVar c
  | .varDiag => .varDiag <$> NState.getVarDiag c
  | .meanVar => (fun x => .meanVar x.1 x.2) <$> NState.getMeanVar c
  | .marginals => (fun x => .marginals x.1 x.2) <$> NState.getMarginals c

/-- Anything that a program does with a normal: it stops with or without a result, or looks at the normal and goes on depending on what
it sees, which is `none` if an exception was raised. Every method of `Normal` is one, and so is every sequence of calls of methods. -/
inductive Client (α : Type) where
  | stop (r : Option α)
  | look (a : Access) (k : Option Seen → Client α)

/-- What a client does. -/
noncomputable def Client.run {α : Type} (c : Ctors) : Client α → NState → Option α × NState
  | .stop r, s => (r, s)
  | .look a k, s =>
    let (r, s) := Access.run c a s
    (k r).run c s

/-- One client after another, whatever the first returns or raises. -/
def Client.andThen {α β : Type} : Client α → (Option α → Client β) → Client β
  | .stop r, k => k r
  | .look a f, k => .look a fun r => (f r).andThen k

/-! ## Methods -/

/-- The entries of a mean that is a column. -/
def MeanVal.entries : MeanVal → List ℝ
  | .zero => []
  | .zeroMat n => List.replicate n 0
  | .col xs => xs

/-- The normal with the given mean and variance. -/
def asNormal (m : MeanVal) (v : Mat) : Normal v.r := ⟨fun i => m.entries.getD i 0, fun i j => v.e i j⟩

/-- Methods that look at the variance and at the mean, such as `m2`, `logpdf`, `kl`, `w2` and arithmetic. -/
def Client.varMean {α : Type} (f : MeanVal → Mat → α) : Client α :=
  .look .var fun
    | some (.var v) => .look .mean fun
      | some (.mean m) => .stop (some (f m v))
      | _ => .stop none
    | _ => .stop none

/-- `marginal_credible_bounds` (`stheno/random.py:229-238`): means, lower and upper bounds. -/
noncomputable def Client.bounds : Client (List ℝ × List ℝ × List ℝ) :=
  .look .marginals fun
    | some (.marginals m d) => .stop (some (m, List.zipWith (fun a b => a - 1.96 * √b) m d, List.zipWith (fun a b => a + 1.96 * √b) m d))
    | _ => .stop none

/-- `diagonalise` (`stheno/random.py:240-246`). -/
def Client.diagonalise : Client (MeanVal × List ℝ) :=
  .look .mean fun
    | some (.mean m) => .look .varDiag fun
      | some (.varDiag d) => .stop (some (m, d))
      | _ => .stop none
    | _ => .stop none

/-- `sample` (`stheno/random.py:331-355`). `zs` are the standard normal numbers. -/
def Client.sample {k : ℕ} (root : ∀ n, Matrix (Fin n) (Fin n) ℝ → Matrix (Fin n) (Fin n) ℝ) (noise : Option ℝ)
    (zs : ∀ n, Fin k → Fin n → ℝ) (s : Fin k) : Client (Σ n, Fin n → ℝ) :=
  .look .var fun
    | some (.var v) =>
      let draw := root v.r ((asNormal .zero v).noisyVar noise) |>.mulVec (zs v.r s)
      .look .meanIsZero fun
        | some (.meanIsZero b) =>
          if b then .stop (some ⟨v.r, draw⟩)
          else .look .mean fun
            | some (.mean m) => .stop (some ⟨v.r, draw + (asNormal m v).mean⟩)
            | _ => .stop none
        | _ => .stop none
    | _ => .stop none

/-! ## Finite-dimensional distributions -/

/-- The sum of two vectors of the same length. -/
def addVecs (u v : List ℝ) : Option (List ℝ) := if u.length = v.length then some (List.zipWith (· + ·) u v) else none

/-- The functions that are given to an FDD (`stheno/model/fdd.py:65-83`), where `mean`, `K` and `u` are what `p.mean(x)`, `p.kernel(x)` and
`p.kernel.elwise(x)` return. `mlkernels.mean_var` and `mlkernels.mean_var_diag` compute the two things they are named after (contract). -/
def fddCtors (mean : MeanVal) (K : Mat) (u : List ℝ) (noise : Mat) : Ctors where
  mean := some mean
  var := K.add noise
  varDiag := some (addVecs u noise.diagonal)
  meanVar := some do pure (mean, ← K.add noise)
  meanVarDiag := some do pure (mean, ← addVecs u noise.diagonal)

end Stheno
