import Verif.BatchAt
import Verif.BatchWorld
import Verif.Fdd

/-!
# Finite-dimensional distributions at batches of inputs

The model of `stheno/model/fdd.py`, `stheno/mo/infer.py`, of how observations are made from arguments (`stheno/model/observations.py:28-83`,
`stheno/model/measure.py:362-401`), and of `Measure.__call__`, `Measure.logpdf` and `Measure.sample` (`stheno/model/measure.py:139-154, 425-485`), where inputs,
noises and values are arrays of any rank. The functions are those of `Verif/Fdd.lean` and `Verif/MeasureFns.lean`. Results are `none` where the code raises.

Simplifications: if values are missing, then making observations raises, also if there are no batch dimensions (that case is in `Verif/Fdd.lean`); noises with
batch dimensions cannot be combined; and kernel matrices and noises must have the same numbers of rows and columns.
-/

namespace Stheno

namespace Bat
open Ten

/-- `dimensionality` (`stheno/mo/infer.py:57-102`): see `dims`. -/
def bdims : BKExpr → Option (Option ℕ)
  | .prim _ | .zero | .tprod _ _ => some (some 1)
  | .mok _ ps => some (some ps.length)
  | .adk _ => some none
  | .add a b | .mul a b => do mergeDims [← bdims a, ← bdims b]
  | .scale _ k | .rev k | .pre _ _ k => bdims k
  | .post kij kzi kzj _ _ _ => do mergeDims [← bdims kij, ← bdims kzi, ← bdims kzj]
  | .pseudo kij kzi kzj _ _ _ _ => do
    mergeDims [← mergeDims [← bdims kij, ← bdims kzi, ← bdims kzj], ← mergeDims [← bdims kzi, ← bdims kzj]]

mutual
/-- `infer_size` (`stheno/mo/infer.py:21-45`). -/
def binferSize (k : BKExpr) : BInput → Option ℕ
  | .tup xs => binferSizeL k xs
  | .num t => do
    match ← bdims k with
    | none => none
    | some d => some (t.nrows * d)
  | .fdd _ x => some x.size
/-- The sum over a tuple (`stheno/mo/infer.py:32`). -/
def binferSizeL (k : BKExpr) : List BInput → Option ℕ
  | [] => some 0
  | x :: xs => do pure ((← binferSize k x) + (← binferSizeL k xs))
end

/-- `_noise_as_matrix` (`stheno/model/fdd.py:14-41`): a number is put on the diagonal of a matrix, a vector is the diagonal of a matrix, and everything else is a
matrix or a batch of matrices. So an array with two axes is a matrix, and not a batch of vectors. -/
def noiseTen : Option (Ten ℝ) → ℕ → Ten ℝ
  | none, n => ⟨[n, n], fun _ => 0⟩
  | some t, n =>
    match t.shape with
    | [] => fillDiag (t.e []) n
    | [k] => ⟨[k, k], fun i => if i.headD 0 = i.tail.headD 0 then t.e i.tail else 0⟩
    | _ => t

/-- `p.measure` (`stheno/model/gp.py:105-111`). -/
def gpMeasure (w : BWorld) (p : PId) : Option MId := ((w.gps[p]?).getD []).head?

/-- `p.kernel` (`stheno/model/gp.py:113-116`). -/
def gpKernel (w : BWorld) (p : PId) : Option BKExpr := do kernelAt w (← gpMeasure w p) p p

/-- Finite-dimensional distributions (`stheno/model/fdd.py:44-57`). -/
structure BFdd where
  p : PId
  x : BInput
  noise : Ten ℝ

/-- `FDD.__init__` (`stheno/model/fdd.py:59-87`), `GP.__call__` (`stheno/model/gp.py:134-144`). -/
def mkFdd (w : BWorld) (p : PId) (x : BInput) (noise : Option (Ten ℝ)) : Option BFdd := do
  let n ← binferSize (← gpKernel w p) x
  pure ⟨p, x, noiseTen noise n⟩

/-- `B.block_diag(*noises)` (`stheno/model/observations.py:38`), for matrices. -/
def blockDiagTen (ts : List (Ten ℝ)) : Option (Ten ℝ) :=
  if ∀ t ∈ ts, t.rank = 2 then
    let A := Mat.blockDiag (ts.map (·.toMat []))
    some ⟨[A.c, A.r], fun i => A.e (i.tail.headD 0) (i.headD 0)⟩
  else none

/-- The FDD that `combine(*fdds)` returns (`stheno/model/observations.py:38-39`), after the cross process `c` was made. -/
def combineFdds (w : BWorld) (c : PId) (fs : List BFdd) : Option BFdd := do
  mkFdd w c (.tup (fs.map fun f => .fdd f.p f.x)) (some (← blockDiagTen (fs.map (·.noise))))

/-- `combine(*fdds)` (`stheno/model/observations.py:28-39`): the operation on the graph, and the resulting FDD. -/
noncomputable def combine (w : BWorld) (ord : List MId) (fs : List BFdd) : Option (BOp × BFdd) :=
  let o := BOp.cross (fs.map (·.p)) ord
  match o.raises w with
  | some _ => none
  | none => do pure (o, ← combineFdds (o.after w) w.gps.length fs)

/-- `measure(fdd)` (`stheno/model/measure.py:139-154`): the operation on the graph, and the resulting FDD. -/
noncomputable def callFdd (w : BWorld) (m : MId) (f : BFdd) : Option (BOp × BFdd) :=
  let o := BOp.call m f.p
  match o.raises w with
  | some _ => none
  | none => do pure (o, ← mkFdd (o.after w) w.gps.length f.x (some f.noise))

/-- Values with missing entries: NaN is `none`. -/
abbrev BVals := Ten (Option ℝ)

/-- No values are missing. -/
def Whole (y : BVals) : Prop := ∀ i, List.Forall₂ (· < ·) i y.uprank.shape → (y.uprank.e i).isSome

open Classical in
/-- `AbstractObservations.__init__(fdd, y)` (`stheno/model/observations.py:64-79`), which raises if the values are not a column (69-70). -/
noncomputable def observe (f : BFdd) (y : BVals) : Option BObs :=
  if y.ncols = 1 ∧ Whole y then some (.exact f.p f.x f.noise (y.uprank.map (·.getD 0))) else none

/-- Arguments of `Measure.condition`, `Measure.logpdf` and `Observations`. -/
inductive BArg where
  | obs (o : BObs)
  | fdd (f : BFdd)
  | vals (y : BVals)
  | tuple (as : List BArg)

/-- A pair of an FDD and values. -/
def BArg.pair? : BArg → Option (BFdd × BVals)
  | .tuple [.fdd f, .vals y] => some (f, y)
  | _ => none

/-- The arguments are a non-empty list of pairs. -/
def pairs? : List BArg → Option (List (BFdd × BVals))
  | [] => none
  | as => as.mapM BArg.pair?

/-- `Observations(*args)` (`stheno/model/observations.py:64-83`): the operations on the graph, and the observations. -/
noncomputable def mkObs (w : BWorld) (ord : List MId) : List BArg → Option (List BOp × BObs)
  | [.fdd f, .vals y] => do pure ([], ← observe f y)
  | as => do
    let l ← pairs? as
    let (o, f) ← combine w ord (l.map (·.1))
    pure ([o], ← observe f (← combineValues (l.map (·.2))))

/-- `measure.condition(*args)` (`stheno/model/measure.py:362-397`): the operations on the graph. -/
noncomputable def conditionArgs (w : BWorld) (ord : List MId) (m : MId) : List BArg → Option (List BOp)
  | [.obs o] => some [.condition m o]
  | [.tuple as] => do
    let (l, o) ← mkObs w ord as
    pure (l ++ [.condition m o])
  | as => do
    let (l, o) ← mkObs w ord as
    pure (l ++ [.condition m o])

/-- The mean `v` and the variance `V` of an FDD (`stheno/model/fdd.py:65-83`). -/
def FddNormal (w : BWorld) (f : BFdd) (v V : Ten ℝ) : Prop :=
  ∃ m K, gpMeasure w f.p = some m ∧ MeanCall w m f.p f.x v ∧ KernelCall w m f.p f.p f.x f.x K ∧ bin (· + ·) K f.noise = some V

/-- The diagonal of the variance of an FDD, as `var_diag` computes it (`stheno/model/fdd.py:65-66`). -/
def FddDiag (w : BWorld) (f : BFdd) (v : Ten ℝ) : Prop :=
  ∃ m E e n, gpMeasure w f.p = some m ∧ ElwiseCall w m f.p f.p f.x f.x E ∧ E.squeezeLast = some e ∧ f.noise.diag = some n ∧ e.shape.head? = n.shape.head? ∧ zip (· + ·) e n = some v

/-- `fdd.logpdf(y)` (`stheno/random.py:248-280`) returns `r`. All variances must be positive definite (contract of `lab`: Cholesky factors). -/
structure FddLogpdf (w : BWorld) (f : BFdd) (y r : BVals) : Prop where
  ret : ∃ v V l bm bv, FddNormal w f v V ∧ v.shape = 1 :: l :: bm ∧ V.shape = l :: l :: bv ∧ (∀ d, In d bv → (V.mat l l d).PosDef) ∧
    y.nrows = l ∧ (⟨v, V⟩ : BNormal).logpdf y = some r

/-- `measure.logpdf(*args)` for anything but pseudo-observations (`stheno/model/measure.py:463-485`): the operations on the graph, and the FDD and the data of
which the log-density is returned. -/
noncomputable def logpdfArgs (w : BWorld) (ord : List MId) (m : MId) : List BArg → Option (List BOp × BFdd × BVals)
  | [.fdd f, .vals y] => do
    let (o, f) ← callFdd w m f
    pure ([o], f, y)
  | [.obs (.exact p x noise y)] => do
    let (o, f) ← callFdd w m ⟨p, x, noise⟩
    pure ([o], f, y.map some)
  | as => do
    let l ← pairs? as
    let (o, f) ← combine w ord (l.map (·.1))
    let y ← combineValues (l.map (·.2))
    let (o', f) ← callFdd (o.after w) m f
    pure ([o, o'], f, y)

/-- `measure.sample(state, n, *fdds)` (`stheno/model/measure.py:425-446`): the operations on the graph, and the FDD that is sampled. -/
noncomputable def sampleArgs (w : BWorld) (ord : List MId) (m : MId) (fs : List BFdd) : Option (List BOp × BFdd) := do
  let (o, f) ← combine w ord fs
  let (o', f) ← callFdd (o.after w) m f
  pure ([o, o'], f)

/-- What `measure.sample` returns from a sample of that FDD (`stheno/model/measure.py:440-446`). -/
def sampleResult {α : Type} (fs : List BFdd) (sample : Ten α) : Option (List (Ten α)) := unpack sample 0 (fs.map fun f => f.x.size)

end Bat

end Stheno
