import Verif.Calls
import Verif.Join

/-!
# Finite-dimensional distributions and arguments of `condition`

The model of `stheno/model/fdd.py`, `stheno/mo/infer.py`, `_take_x` of `stheno/mo/kernel.py`, and of how observations
are made from arguments (`stheno/model/observations.py:28-83`, `stheno/model/measure.py:362-401`).

Lookups of kernels are pure here: that they do not change what can be observed is C03. Results are `none` where the code
raises. An FDD that is an input has no noise (`Input.fdd`): no mean or kernel looks at it.
-/

namespace Stheno

/-- Noise arguments (`stheno/model/fdd.py:14-41`). -/
inductive NoiseArg where
  | none
  | scalar (c : ℝ)
  | vec (cs : List ℝ)
  | mat (A : Mat)

/-- `_noise_as_matrix` (`stheno/model/fdd.py:14-41`). -/
noncomputable def noiseAsMatrix : NoiseArg → ℕ → Mat
  | .none, n => ⟨n, n, fun _ _ => 0⟩
  | .scalar c, n => ⟨n, n, fun i j => if i = j then c else 0⟩
  | .vec cs, _ => ⟨cs.length, cs.length, fun i j => if i = j then cs.getD i 0 else 0⟩
  | .mat A, _ => A

/-- `_check_and_merge` (`stheno/mo/infer.py:48-54`). Dimensionalities that are `None` or zero are left out. -/
def mergeDims (ds : List (Option ℕ)) : Option (Option ℕ) :=
  match ds.filter (fun d => d ≠ none ∧ d ≠ some 0) with
  | [] => some none
  | d :: ds => if ds.all (· = d) then some d else none

/-- `dimensionality` (`stheno/mo/infer.py:57-102`, `stheno/mo/kernel.py:79-81`, `stheno/mo/adk.py:63-65`): `some none`
stands for `None`. `pseudo` is the sum of a posterior kernel and a subspace kernel. -/
def dims : KExpr → Option (Option ℕ)
  | .prim _ | .zero | .tprod _ _ => some (some 1)
  | .mok _ ps => some (some ps.length)
  | .adk _ => some none
  | .add a b | .mul a b => do mergeDims [← dims a, ← dims b]
  | .scale _ k | .rev k | .pre _ _ k | .diff _ _ k => dims k
  | .post kij kzi kzj _ _ _ => do mergeDims [← dims kij, ← dims kzi, ← dims kzj]
  | .pseudo kij kzi kzj _ _ _ _ => do
    mergeDims [← mergeDims [← dims kij, ← dims kzi, ← dims kzj], ← mergeDims [← dims kzi, ← dims kzj]]

mutual
/-- `infer_size` (`stheno/mo/infer.py:21-45`). -/
def inferSize (k : KExpr) : Input → Option ℕ
  | .tup xs => inferSizeL k xs
  | .num xs => do
    match ← dims k with
    | none => none
    | some d => some (xs.length * d)
  | .fdd _ x => some (numElements x)
/-- The sum over a tuple (`stheno/mo/infer.py:32`). -/
def inferSizeL (k : KExpr) : List Input → Option ℕ
  | [] => some 0
  | x :: xs => do pure ((← inferSize k x) + (← inferSizeL k xs))
end

/-- `p.measure` (`stheno/model/gp.py:105-111`). -/
def gpMeasure (w : World) (p : PId) : Option MId := (groups w p).head?

/-- `p.kernel` (`stheno/model/gp.py:113-116`). -/
def gpKernel (w : World) (p : PId) : Option KExpr := do kernelAt w (← gpMeasure w p) p p

/-- Finite-dimensional distributions (`stheno/model/fdd.py:44-57`). The case of a process given by its `id`, in which the
noise is `None`, is not modelled. -/
structure Fdd where
  p : PId
  x : Input
  noise : Mat

/-- `FDD.__init__` (`stheno/model/fdd.py:59-87`), `GP.__call__` (`stheno/model/gp.py:134-144`). -/
noncomputable def mkFdd (w : World) (p : PId) (x : Input) (noise : NoiseArg) : Option Fdd := do
  let n ← inferSize (← gpKernel w p) x
  pure ⟨p, x, noiseAsMatrix noise n⟩

/-- The entries selected by a mask of the same length (`B.take` with a mask, contract of `lab`). -/
def pick {α : Type} : List α → List Bool → List α
  | x :: xs, true :: mask => x :: pick xs mask
  | _ :: xs, false :: mask => pick xs mask
  | _, _ => []

/-- `B.take(xs, mask)`; it fails if the lengths differ. -/
def takeRows {α : Type} (xs : List α) (mask : List Bool) : Option (List α) :=
  if xs.length = mask.length then some (pick xs mask) else none

/-- `B.submatrix(A, mask)`; it fails if the lengths differ. -/
def Mat.take (A : Mat) (mask : List Bool) : Option Mat :=
  if A.r = mask.length ∧ A.c = mask.length then
    let is := pick (List.range mask.length) mask
    some ⟨is.length, is.length, fun i j => A.e (is.getD i 0) (is.getD j 0)⟩
  else none

/-- The loop over a tuple in `_take_x` (`stheno/model/fdd.py:140-148`): `tk` is the recursive call, `sz` is `infer_size`. -/
def takeTup (tk : Input → List Bool → Option Input) (sz : Input → Option ℕ) : List Input → List Bool → Option (List Input)
  | [], _ => some []
  | x :: xs, mask => do
    let s ← sz x
    let y ← tk x (mask.take s)
    let ys ← takeTup tk sz xs (mask.drop s)
    pure (y :: ys)

/-- `_take_x` (`stheno/model/fdd.py:135-148`, `stheno/mo/kernel.py:84-99`), where `kern` is `p.kernel`, with recursion depth
at most `n`. For multi-output kernels at numeric inputs the code loops over `p(x)` (`stheno/mo/kernel.py:84-91`) like over a
tuple; `p(x)` has noise of the inferred size, of which a submatrix is taken (`stheno/model/fdd.py:132`), so that size must
be the number of rows. Kernels other than multi-output kernels do not accept FDDs. -/
def takeX (kern : PId → Option KExpr) : ℕ → KExpr → Input → List Bool → Option Input
  | 0, _, _, _ => none
  | n + 1, k, .tup xs, mask => do pure (.tup (← takeTup (takeX kern n k) (inferSize k) xs mask))
  | n + 1, .mok m ps, .num xs, mask =>
    if ∀ p ∈ ps, (kern p).bind (inferSize · (.num xs)) = some xs.length then
      takeX kern n (.mok m ps) (.tup (ps.map (.fdd · (.num xs)))) mask
    else none
  | n + 1, .mok _ ps, .fdd p x, mask =>
    if p ∈ ps then do pure (.fdd p (← takeX kern n (← kern p) x mask)) else none
  | _ + 1, _, .num xs, mask => do pure (.num (← takeRows xs mask))
  | _ + 1, _, .fdd _ _, _ => none

/-- `B.take(fdd, mask)` (`stheno/model/fdd.py:125-132`). -/
noncomputable def takeFdd (w : World) (n : ℕ) (f : Fdd) (mask : List Bool) : Option Fdd := do
  let x ← takeX (gpKernel w) n (← gpKernel w f.p) f.x mask
  mkFdd w f.p x (.mat (← f.noise.take mask))

/-- Values with missing entries: NaN is `none`. -/
abbrev Vals := List (Option ℝ)

/-- `AbstractObservations.__init__(fdd, y)` (`stheno/model/observations.py:64-79`) for a single column `y`. Only the part of
the observations that later computations use is recorded. -/
noncomputable def observe (w : World) (n : ℕ) (f : Fdd) (y : Vals) : Option Obs :=
  if y.all Option.isSome then some (.exact f.p f.x f.noise (y.filterMap id))
  else do
    let f ← takeFdd w n f (y.map Option.isSome)
    pure (.exact f.p f.x f.noise (y.filterMap id))

/-- The FDD that `combine(*fdds)` returns (`stheno/model/observations.py:38-39`), after the cross process `c` was made. -/
noncomputable def combineFdds (w : World) (c : PId) (fs : List Fdd) : Option Fdd :=
  mkFdd w c (.tup (fs.map fun f => .fdd f.p f.x)) (.mat (Mat.blockDiag (fs.map (·.noise))))

/-- `combine(*fdds)` (`stheno/model/observations.py:28-39`): the operation on the graph, and the resulting FDD. `ord` is the
order in which the measures of the cross process are visited. -/
noncomputable def combine (w : World) (ord : List MId) (fs : List Fdd) : Option (Op × Fdd) :=
  let o := Op.cross (fs.map (·.p)) ord
  match o.raises w with
  | some _ => none
  | none => do pure (o, ← combineFdds (o.after w) w.gps.length fs)

/-- Arguments of `Measure.condition` and `Observations`. -/
inductive Arg where
  | obs (o : Obs)
  | fdd (f : Fdd)
  | vals (y : Vals)
  | tuple (as : List Arg)

/-- A pair of an FDD and values. -/
def Arg.pair? : Arg → Option (Fdd × Vals)
  | .tuple [.fdd f, .vals y] => some (f, y)
  | _ => none

/-- The arguments are a non-empty list of pairs. -/
def pairs? : List Arg → Option (List (Fdd × Vals))
  | [] => none
  | as => as.mapM Arg.pair?

/-- `Observations(*args)` (`stheno/model/observations.py:64-83`): which operations on the graph it performs, and the
observations it returns. -/
noncomputable def mkObs (w : World) (n : ℕ) (ord : List MId) : List Arg → Option (List Op × Obs)
  | [.fdd f, .vals y] => do pure ([], ← observe w n f y)
  | as => do
    let l ← pairs? as
    let (o, f) ← combine w ord (l.map (·.1))
    pure ([o], ← observe (o.after w) n f (l.flatMap (·.2)))

/-- `measure.condition(*args)` (`stheno/model/measure.py:362-397`): the operations on the graph it performs. The two
methods for tuples (388-394) do the same for one argument that is not a tuple of tuples; one tuple is
unpacked once. -/
noncomputable def conditionArgs (w : World) (n : ℕ) (ord : List MId) (m : MId) : List Arg → Option (List Op)
  | [.obs o] => some [.condition m o]
  | [.tuple as] => do
    let (l, o) ← mkObs w n ord as
    pure (l ++ [.condition m o])
  | as => do
    let (l, o) ← mkObs w n ord as
    pure (l ++ [.condition m o])

/-- `measure | arg` (`stheno/model/measure.py:399-401`). -/
noncomputable def orArg (w : World) (n : ℕ) (ord : List MId) (m : MId) (a : Arg) : Option (List Op) :=
  conditionArgs w n ord m [a]

end Stheno
