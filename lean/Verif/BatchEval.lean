import Verif.BatchSparse
import Verif.Eval

/-!
# Evaluation of means and kernels at batches of inputs

`pairwise`, `elwise` and calls of means where inputs, noises and observed values are arrays with batch dimensions
(`tests/model/test_cases.py:134-176`). The dispatch is that of `stheno/mo/*.py`, as in `Verif/Eval.lean`; results are arrays. A result is `none` where
the code raises. Shapes are listed from the last axis to the first, as in `Verif/Tensor.lean`.

Simplifications: those of `Verif/Eval.lean`; amounts and scalars are not batches; derivatives are left out. Contracts of `mlkernels`: kernels and means
work on the last two axes and broadcast batch dimensions, and the zero kernel and constant means have the batch dimensions of the inputs.
-/

namespace Stheno

open Matrix

/-- Inputs as in `Input`, where numeric inputs are arrays. -/
inductive BInput where
  | num (t : Ten ℝ)
  | fdd (p : PId) (x : BInput)
  | tup (xs : List BInput)

/-- Pseudo-observations as in `PseudoData`, where noises and values are arrays. -/
structure BPseudo where
  method : Method
  z : BInput
  noiseZ : Ten ℝ
  x : BInput
  noiseX : Ten ℝ
  isDiagonal : Bool
  y : Ten ℝ

/-- Kernels as in `KExpr`, where inputs and noises of observations are arrays. -/
inductive BKExpr where
  | prim (k : Pt → Pt → ℝ)
  | zero
  | mok (m : MId) (ps : List PId)
  | adk (k : BKExpr)
  | add (a b : BKExpr)
  | mul (a b : BKExpr)
  | scale (c : ℝ) (k : BKExpr)
  | tprod (f g : Fn)
  | rev (k : BKExpr)
  | pre (t u : InTr) (k : BKExpr)
  | post (kij kzi kzj : BKExpr) (z : BInput) (kzz : BKExpr) (noise : Ten ℝ)
  | pseudo (kij kzi kzj kzz kzx kxx : BKExpr) (o : BPseudo)

/-- Means as in `MExpr`, where inputs, noises and values of observations are arrays. -/
inductive BMExpr where
  | zero
  | fn (f : Fn)
  | mom (m : MId) (ps : List PId)
  | add (a b : BMExpr)
  | mul (a b : BMExpr)
  | scale (c : ℝ) (a : BMExpr)
  | pre (t : InTr) (a : BMExpr)
  | post (mi mz : BMExpr) (kzi : BKExpr) (z : BInput) (kzz : BKExpr) (noise : Ten ℝ) (y : Ten ℝ)
  | pseudo (mi mz mx : BMExpr) (kzi kzz kzx kxx : BKExpr) (o : BPseudo)

namespace Ten

/-- The number of rows of the matrices, where vectors are single columns. -/
def nrows {α : Type} (t : Ten α) : ℕ := t.uprank.shape.tail.headD 0

/-- The number of columns. -/
def ncols {α : Type} (t : Ten α) : ℕ := t.uprank.shape.headD 0

/-- The batch dimensions. -/
def batch {α : Type} (t : Ten α) : List ℕ := t.uprank.shape.tail.tail

/-- Row `i` of the matrix at the index `d` of the batch. -/
def row (t : Ten ℝ) (i : ℕ) (d : List ℕ) : Pt := (List.range t.ncols).map fun j => t.uprank.get (j :: i :: d)

/-- Elementwise functions of two arrays of matrices. Only batch dimensions are broadcast: see the simplifications of `Verif/Eval.lean`. -/
def bin (f : ℝ → ℝ → ℝ) (a b : Ten ℝ) : Option (Ten ℝ) :=
  match a.shape, b.shape with
  | c :: r :: _, c' :: r' :: _ => if c = c' ∧ r = r' then zip f a b else none
  | _, _ => none

/-- The concatenation of two arrays along the columns; `B.concat` does not broadcast. -/
def hcat (a b : Ten ℝ) : Option (Ten ℝ) :=
  match a.shape, b.shape with
  | c :: r :: s, c' :: r' :: s' =>
    if r = r' ∧ s = s' then some ⟨(c + c') :: r :: s, fun i => if i.headD 0 < c then a.e i else b.e ((i.headD 0 - c) :: i.tail)⟩ else none
  | _, _ => none

/-- `B.concat(*ts, axis=-1)` -/
def hconcat : List (Ten ℝ) → Option (Ten ℝ)
  | [] => none
  | [t] => if 2 ≤ t.rank then some t else none
  | t :: ts => do hcat t (← hconcat ts)

/-- The diagonals of `bᵀ a⁻¹ c` as columns (`B.iqf_diag(a, b, c)[..., None]`). -/
noncomputable def iqfCol (a b c : Ten ℝ) : Option (Ten ℝ) := do pure (← (← iqf a b c).diag).newAxis

end Ten

open Ten

mutual
/-- `num_elements`: see `numElements`. -/
def BInput.size : BInput → ℕ
  | .num t => t.nrows
  | .fdd _ x => x.size
  | .tup xs => BInput.sizeL xs
/-- The sum over a tuple. -/
def BInput.sizeL : List BInput → ℕ
  | [] => 0
  | x :: xs => x.size + BInput.sizeL xs
end

mutual
/-- The batch dimensions of an input; `none` if those of the elements of a tuple do not fit. -/
def BInput.batch : BInput → Option (List ℕ)
  | .num t => some t.batch
  | .fdd _ x => x.batch
  | .tup xs => BInput.batchL xs
/-- The batch dimensions of the elements of a tuple. -/
def BInput.batchL : List BInput → Option (List ℕ)
  | [] => some []
  | x :: xs => do bcast (← x.batch) (← BInput.batchL xs)
end

open Classical in
/-- A function that is applied to all rows. The results must have the same lengths, because they are the rows of an array. -/
noncomputable def Ten.onRows (g : Pt → Pt) (t : Ten ℝ) : Option (Ten ℝ) :=
  if h : ∃ f : ℕ, ∀ i < t.nrows, ∀ d, List.Forall₂ (· < ·) d t.batch → (g (t.row i d)).length = f then some ⟨h.choose :: t.nrows :: t.batch, fun i => (g (t.row (i.tail.headD 0) i.tail.tail)).getD (i.headD 0) 0⟩ else none

/-- Whether an amount can be used for inputs with `f` features. -/
def Amt.ok (f : ℕ) : Amt → Bool
  | .scalar _ => true
  | .vec cs => cs.length = f

/-- Apply an input transformation to an input that is not a tuple: see `InTr.apply`. -/
noncomputable def InTr.applyB : InTr → BInput → Option BInput
  | .none, .num t => some (.num t)
  | .none, .fdd p x => some (.fdd p x)
  | .shift a, .num t => if a.ok t.ncols then (t.onRows fun x => (a.sub x).getD x).map .num else Option.none
  | .stretch a, .num t => if a.ok t.ncols then (t.onRows fun x => (a.div x).getD x).map .num else Option.none
  | .select ds, .num t => if ∀ i ∈ ds, i < t.ncols then (t.onRows fun x => ds.map (x.getD · 0)).map .num else Option.none
  | .map g, .num t => (t.onRows g).map .num
  | .toFdd j, .num t => some (.fdd j (.num t))
  | .toFdd j, .fdd p x => some (.fdd j (.fdd p x))
  | _, _ => Option.none

/-- Evaluators: calls of means, `pairwise`, `elwise`. -/
structure BEv where
  M : BMExpr → BInput → Option (Ten ℝ)
  K : BKExpr → BInput → BInput → Option (Ten ℝ)
  D : BKExpr → BInput → BInput → Option (Ten ℝ)

section Step
variable (lm : MId → PId → Option BMExpr) (lk : MId → PId → PId → Option BKExpr) (r : BEv)

/-- Calling a function: see `stepFn`. The function `ones` (`stheno/model/measure.py:243-244`) ignores batch dimensions. -/
def bstepFn : Fn → BInput → Option (Ten ℝ)
  | .user f, .num t => some ⟨1 :: t.nrows :: t.batch, fun i => f (t.row (i.tail.headD 0) i.tail.tail)⟩
  | .user _, _ => none
  | .const c, x => some ⟨[1, x.size], fun _ => c⟩
  | .meanOf m p, x => do r.M (← lm m p) x

open Classical in
/-- `K_z`, if all matrices of the batch can be factorised (`stheno/model/observations.py:136-141, 287, 300`). -/
noncomputable def bstepKz (kzz : BKExpr) (z : BInput) (noise : Ten ℝ) : Option (Ten ℝ) := do
  let A ← r.K kzz z z
  let K ← bin (· + ·) A noise
  match K.shape with
  | c :: n :: s => if c = n ∧ ∀ d, List.Forall₂ (· < ·) d s → (K.mat n n d).PosDef then pure K else none
  | _ => none

/-- `K_x_diag` (`stheno/model/observations.py:304`), which DTC does not need. -/
noncomputable def bstepKx (kxx : BKExpr) (o : BPseudo) (k : ℕ) : Option (Ten ℝ) :=
  match o.method with
  | .dtc => some ⟨[1, k], fun _ => 0⟩
  | _ => do
    let v ← r.D kxx o.x o.x
    if v.shape.take 2 = [1, k] then pure v else none

open Classical in
/-- The arrays that `_compute` starts with (`stheno/model/observations.py:279-316`), where means and values are zero. The entries of `K_n` must be positive
(otherwise the code returns infinities or NaNs). -/
noncomputable def bstepData (kzz kzx kxx : BKExpr) (o : BPseudo) : Option BData := do
  let K ← bstepKz r kzz o.z o.noiseZ
  let Z ← r.K kzx o.z o.x
  let noise ← o.noiseX.diag
  match K.shape, Z.shape, noise.shape with
  | n :: _, k :: n' :: _, k' :: _ =>
    if n' = n ∧ k' = k then do
      let kx ← bstepKx r kxx o k
      let D : BData := ⟨K, Z, kx, noise, ⟨[1, k], fun _ => 0⟩, ⟨[1, n], fun _ => 0⟩, ⟨[1, k], fun _ => 0⟩⟩
      let (Kn, _) ← D.noiseTrace o.method (← solve (← K.onMat fun _ A => chol A) Z)
      if ∀ i, List.Forall₂ (· < ·) i Kn.shape → 0 < Kn.e i then pure D else none
    else none
  | _, _, _ => none

/-- `pairwise(k, x, y)` for tuples (`stheno/mo/input.py:7-9`). -/
def btupK (k : BKExpr) (xs ys : List BInput) : Option (Ten ℝ) := do
  let rows ← xs.mapM fun x => do
    let row ← ys.mapM fun y => r.K k x y
    hconcat row
  concat rows

/-- `pairwise(k, x, y)` for inputs that are not tuples. -/
noncomputable def bstepKAtom : BKExpr → BInput → BInput → Option (Ten ℝ)
  | .prim k, .num t, .num u => (bcast t.batch u.batch).map fun s =>
    ⟨u.nrows :: t.nrows :: s, fun i => k (t.row (i.tail.headD 0) i.tail.tail) (u.row (i.headD 0) i.tail.tail)⟩
  | .prim _, _, _ => none
  | .zero, x, y => do
    let s ← bcast (← x.batch) (← y.batch)
    pure ⟨y.size :: x.size :: s, fun _ => 0⟩
  -- `stheno/mo/kernel.py:39-56`
  | .mok m ps, .num t, .num u => r.K (.mok m ps) (.tup (ps.map (.fdd · (.num t)))) (.tup (ps.map (.fdd · (.num u))))
  | .mok m ps, .fdd p x, .num u => r.K (.mok m ps) (.tup [.fdd p x]) (.tup (ps.map (.fdd · (.num u))))
  | .mok m ps, .num t, .fdd q y => r.K (.mok m ps) (.tup (ps.map (.fdd · (.num t)))) (.tup [.fdd q y])
  | .mok m _, .fdd p x, .fdd q y => do r.K (← lk m p q) x y
  | .mok _ _, _, _ => none
  -- `stheno/mo/adk.py:49-51`
  | .adk k, x, y => r.K k x y
  | .add a b, x, y => do bin (· + ·) (← r.K a x y) (← r.K b x y)
  | .mul a b, x, y => do bin (· * ·) (← r.K a x y) (← r.K b x y)
  | .scale c k, x, y => (r.K k x y).map (Ten.map (c * ·))
  | .tprod f g, x, y => do mul (← bstepFn lm r f x) (← (← bstepFn lm r g y).tr)
  | .rev k, x, y => do (← r.K k y x).tr
  | .pre t u k, x, y => do r.K k (← t.applyB x) (← u.applyB y)
  | .post kij kzi kzj z kzz noise, x, y => do
    let A ← r.K kij x y
    let K ← bstepKz r kzz z noise
    bin (· - ·) A (← iqf K (← r.K kzi z x) (← r.K kzj z y))
  | .pseudo kij kzi kzj kzz kzx kxx o, x, y => do
    let A ← r.K kij x y
    let D ← bstepData r kzz kzx kxx o
    let B ← r.K kzi o.z x
    let C ← r.K kzj o.z y
    let P ← bin (· - ·) A (← iqf D.Kz B C)
    bin (· + ·) P (← iqf (← D.compute o.method).A B C)

/-- `pairwise(k, x, y)`: tuples first (`stheno/mo/input.py:7-19`, `precedence=1`). -/
noncomputable def bstepK (k : BKExpr) : BInput → BInput → Option (Ten ℝ)
  | .tup xs, .tup ys => btupK r k xs ys
  | .tup xs, y => btupK r k xs [y]
  | x, .tup ys => btupK r k [x] ys
  | x, y => bstepKAtom lm lk r k x y

/-- `elwise(k, x, y)` for tuples (`stheno/mo/input.py:22-26`). -/
def btupD (k : BKExpr) (xs ys : List BInput) : Option (Ten ℝ) :=
  if xs.length = ys.length then do concat (← (xs.zip ys).mapM fun xy => r.D k xy.1 xy.2) else none

/-- `elwise(k, x, y)` for inputs that are not tuples. -/
noncomputable def bstepDAtom : BKExpr → BInput → BInput → Option (Ten ℝ)
  | .prim k, .num t, .num u =>
    if t.nrows = u.nrows then (bcast t.batch u.batch).map fun s => ⟨1 :: t.nrows :: s, fun i => k (t.row (i.tail.headD 0) i.tail.tail) (u.row (i.tail.headD 0) i.tail.tail)⟩
    else none
  | .prim _, _, _ => none
  | .zero, x, y =>
    if x.size = y.size then do
      let s ← bcast (← x.batch) (← y.batch)
      pure ⟨1 :: x.size :: s, fun _ => 0⟩
    else none
  -- `stheno/mo/kernel.py:59-76`
  | .mok m ps, .num t, .num u => r.D (.mok m ps) (.tup (ps.map (.fdd · (.num t)))) (.tup (ps.map (.fdd · (.num u))))
  | .mok m _, .fdd p x, .fdd q y => do r.D (← lk m p q) x y
  | .mok _ _, _, _ => none
  -- `stheno/mo/adk.py:54-56`
  | .adk k, x, y => r.D k x y
  | .add a b, x, y => do bin (· + ·) (← r.D a x y) (← r.D b x y)
  | .mul a b, x, y => do bin (· * ·) (← r.D a x y) (← r.D b x y)
  | .scale c k, x, y => (r.D k x y).map (Ten.map (c * ·))
  | .tprod f g, x, y => do bin (· * ·) (← bstepFn lm r f x) (← bstepFn lm r g y)
  | .rev k, x, y => r.D k y x
  | .pre t u k, x, y => do r.D k (← t.applyB x) (← u.applyB y)
  | .post kij kzi kzj z kzz noise, x, y => do
    let v ← r.D kij x y
    let K ← bstepKz r kzz z noise
    bin (· - ·) v (← iqfCol K (← r.K kzi z x) (← r.K kzj z y))
  | .pseudo kij kzi kzj kzz kzx kxx o, x, y => do
    let v ← r.D kij x y
    let D ← bstepData r kzz kzx kxx o
    let B ← r.K kzi o.z x
    let C ← r.K kzj o.z y
    let w ← bin (· - ·) v (← iqfCol D.Kz B C)
    bin (· + ·) w (← iqfCol (← D.compute o.method).A B C)

/-- `elwise(k, x, y)`: tuples first (`stheno/mo/input.py:22-36`, `precedence=1`). -/
noncomputable def bstepD (k : BKExpr) : BInput → BInput → Option (Ten ℝ)
  | .tup xs, .tup ys => btupD r k xs ys
  | .tup xs, y => btupD r k xs [y]
  | x, .tup ys => btupD r k [x] ys
  | x, y => bstepDAtom lm lk r k x y

/-- Calling a mean: see `stepM`. A constant mean is a multiple of `OneMean()`. -/
noncomputable def bstepM : BMExpr → BInput → Option (Ten ℝ)
  | .zero, x => do pure ⟨1 :: x.size :: (← x.batch), fun _ => 0⟩
  | .fn (.const c), x => do pure ⟨1 :: x.size :: (← x.batch), fun _ => c⟩
  | .fn f, x => bstepFn lm r f x
  | .mom m ps, .num t => r.M (.mom m ps) (.tup (ps.map (.fdd · (.num t))))
  | .mom m _, .fdd p x => do r.M (← lm m p) x
  | .mom m ps, .tup xs => do concat (← xs.mapM (r.M (.mom m ps)))
  | .add a b, x => do bin (· + ·) (← r.M a x) (← r.M b x)
  | .mul a b, x => do bin (· * ·) (← r.M a x) (← r.M b x)
  | .scale c a, x => (r.M a x).map (Ten.map (c * ·))
  | .pre t a, x => do r.M a (← t.applyB x)
  | .post mi mz kzi z kzz noise y, x => do
    let v ← r.M mi x
    let K ← bstepKz r kzz z noise
    let w ← bin (· - ·) y.uprank (← r.M mz z)
    bin (· + ·) v (← iqf K (← r.K kzi z x) w)
  | .pseudo mi mz mx kzi kzz kzx kxx o, x => do
    let v ← r.M mi x
    let D ← bstepData r kzz kzx kxx o
    let mzv ← r.M mz o.z
    let mxv ← r.M mx o.x
    let B ← r.K kzi o.z x
    if mzv.shape.take 2 = D.mz.shape ∧ mxv.shape.take 2 = D.mx.shape ∧ o.y.uprank.shape.take 2 = D.y.shape then do
      let R ← BData.compute o.method { D with mx := mxv, mz := mzv, y := o.y }
      bin (· + ·) v (← iqf D.Kz B (← bin (· - ·) R.mu mzv))
    else none

/-- One level of recursion. -/
noncomputable def bstep : BEv := ⟨bstepM lm r, bstepK lm lk r, bstepD lm lk r⟩

end Step

/-- The evaluator that gives up everywhere. -/
def BEv.bot : BEv := ⟨fun _ _ => none, fun _ _ _ => none, fun _ _ _ => none⟩

/-- The evaluator with recursion depth `n`. -/
noncomputable def bev (lm : MId → PId → Option BMExpr) (lk : MId → PId → PId → Option BKExpr) : ℕ → BEv
  | 0 => .bot
  | n + 1 => bstep lm lk (bev lm lk n)

end Stheno
