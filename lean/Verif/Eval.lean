import Mathlib.Analysis.Calculus.Deriv.Basic
import Verif.Numerics

/-!
# Evaluation of means and kernels

`pairwise`, `elwise` and calls of means, with the dispatch of `stheno/mo/*.py` and the contracts of
`mlkernels`. A result is `none` where the code raises. Recursion is bounded by fuel: `ev lm lk n` is the
evaluator with recursion depth `n`; results do not depend on the depth once there is a result.

Simplifications: shapes of summands and factors must be equal (no broadcasting of single rows or columns);
functions given by the user are applied row by row and fail on anything but numeric arrays; building the FDD
`p(x)` inside of multi-output kernels does not check that the size of `p` can be inferred.
-/

namespace Stheno

open Matrix

namespace Mat

/-- `A + B` -/
def add (A B : Mat) : Option Mat :=
  if A.r = B.r ∧ A.c = B.c then some ⟨A.r, A.c, fun i j => A.e i j + B.e i j⟩ else none

/-- `A - B` -/
def sub (A B : Mat) : Option Mat :=
  if A.r = B.r ∧ A.c = B.c then some ⟨A.r, A.c, fun i j => A.e i j - B.e i j⟩ else none

/-- Elementwise product. -/
def mul (A B : Mat) : Option Mat :=
  if A.r = B.r ∧ A.c = B.c then some ⟨A.r, A.c, fun i j => A.e i j * B.e i j⟩ else none

def smul (c : ℝ) (A : Mat) : Mat := ⟨A.r, A.c, fun i j => c * A.e i j⟩

def tr (A : Mat) : Mat := ⟨A.c, A.r, fun i j => A.e j i⟩

/-- Two blocks side by side; the numbers of rows must agree. -/
def hcat (A B : Mat) : Option Mat :=
  if A.r = B.r then
    some ⟨A.r, A.c + B.c, fun i j => if j < A.c then A.e i j else B.e i (j - A.c)⟩
  else none

/-- Two blocks on top of each other; the numbers of columns must agree. -/
def vcat (A B : Mat) : Option Mat :=
  if A.c = B.c then
    some ⟨A.r + B.r, A.c, fun i j => if i < A.r then A.e i j else B.e (i - A.r) j⟩
  else none

/-- Blocks side by side; concatenating nothing is an error. -/
def hcatL : List Mat → Option Mat
  | [] => none
  | [A] => some A
  | A :: As => do (hcat A) (← hcatL As)

/-- Blocks on top of each other; concatenating nothing is an error. -/
def vcatL : List Mat → Option Mat
  | [] => none
  | [A] => some A
  | A :: As => do (vcat A) (← vcatL As)

/-- The leading square block of size `n`. -/
def sq (A : Mat) (n : ℕ) : Matrix (Fin n) (Fin n) ℝ := fun i j => A.e i j

/-- `Bᵀ W C` -/
noncomputable def quad {n : ℕ} (W : Matrix (Fin n) (Fin n) ℝ) (B C : Mat) : Option Mat :=
  if B.r = n ∧ C.r = n then
    some ⟨B.c, C.c, fun i j => ∑ a : Fin n, ∑ b : Fin n, B.e a i * W a b * C.e b j⟩
  else none

/-- The diagonal of `Bᵀ W C`. -/
noncomputable def quadDiag {n : ℕ} (W : Matrix (Fin n) (Fin n) ℝ) (B C : Mat) : Option (List ℝ) :=
  if B.r = n ∧ C.r = n ∧ B.c = C.c then
    some ((List.range B.c).map fun i => ∑ a : Fin n, ∑ b : Fin n, B.e a i * W a b * C.e b i)
  else none

/-- `Bᵀ w` -/
noncomputable def tmulVec {n : ℕ} (B : Mat) (w : Fin n → ℝ) : Option (List ℝ) :=
  if B.r = n then some ((List.range B.c).map fun i => ∑ a : Fin n, B.e a i * w a) else none

end Mat

/-- Combine two columns entry by entry; the lengths must agree. -/
def zipCol (f : ℝ → ℝ → ℝ) (u v : List ℝ) : Option (List ℝ) :=
  if u.length = v.length then some (List.zipWith f u v) else none

/-- Subtract an amount from a row (`B.subtract(x, shift)`, contract of `mlkernels`). -/
def Amt.sub (x : Pt) : Amt → Option Pt
  | .scalar c => some (x.map (· - c))
  | .vec cs => if cs.length = x.length then some (List.zipWith (· - ·) x cs) else none

/-- Divide a row by an amount (`B.divide(x, stretch)`, contract of `mlkernels`). -/
noncomputable def Amt.div (x : Pt) : Amt → Option Pt
  | .scalar c => some (x.map (· / c))
  | .vec cs => if cs.length = x.length then some (List.zipWith (· / ·) x cs) else none

/-- Apply an input transformation to an input that is not a tuple (contract of `mlkernels`; tuples are taken
apart before kernels see them). Shifting, stretching or selecting from an FDD is arithmetic on a random
vector, whose result is not an input, so it fails. -/
noncomputable def InTr.apply : InTr → Input → Option Input
  | .none, .num xs => some (.num xs)
  | .none, .fdd p x => some (.fdd p x)
  | .shift a, .num xs => (xs.mapM (Amt.sub · a)).map .num
  | .stretch a, .num xs => (xs.mapM (Amt.div · a)).map .num
  | .select ds, .num xs => (xs.mapM fun x => ds.mapM (x[·]?)).map .num
  | .map g, .num xs => some (.num (xs.map g))
  | .toFdd j, .num xs => some (.fdd j (.num xs))
  | .toFdd j, .fdd p x => some (.fdd j (.fdd p x))
  | _, _ => Option.none

/-- An input that is not a tuple. -/
def Input.IsAtom : Input → Prop
  | .tup _ => False
  | _ => True

/-- The row `x` with `t` added to feature `d`. -/
def bump (d : ℕ) (t : ℝ) (x : Pt) : Pt := x.modify d (· + t)

/-- The same, or `x` itself if there is no feature. -/
def bumps (d : Option ℕ) (t : ℝ) (x : Pt) : Pt :=
  match d with
  | none => x
  | some d => bump d t x

/-- Evaluators: calls of means, `pairwise`, `elwise`. -/
structure Ev where
  M : MExpr → Input → Option (List ℝ)
  K : KExpr → Input → Input → Option Mat
  D : KExpr → Input → Input → Option (List ℝ)

section Step
variable (lm : MId → PId → Option MExpr) (lk : MId → PId → PId → Option KExpr) (r : Ev)

/-- Calling a function: a user function applies to each row; a constant has one value per element
(`ones`, `stheno/model/measure.py:243-244`); `self.means[p](x)` (258-259). -/
def stepFn : Fn → Input → Option (List ℝ)
  | .user f, .num xs => some (xs.map f)
  | .user _, _ => none
  | .const c, x => some (List.replicate (numElements x) c)
  | .meanOf m p, x => do r.M (← lm m p) x

/-- `k(x, y)` for two rows, if that is a single number. -/
def scalK (k : KExpr) (x y : Pt) : Option ℝ := do
  let A ← r.K k (.num [x]) (.num [y])
  if A.r = 1 ∧ A.c = 1 then pure (A.e 0 0) else none

/-- `m(x)` for a row, if that is a single number. -/
def scalM (a : MExpr) (x : Pt) : Option ℝ := do
  let v ← r.M a (.num [x])
  match v with
  | [c] => pure c
  | _ => none

/-- The derivative of a function of two rows with respect to feature `d` of the first and `e` of the
second. -/
noncomputable def derivK (f : Pt → Pt → ℝ) (d e : Option ℕ) (x y : Pt) : ℝ :=
  match d, e with
  | none, none => f x y
  | some d, none => deriv (fun s => f (bump d s x) y) 0
  | none, some e => deriv (fun t => f x (bump e t y)) 0
  | some d, some e => deriv (fun s => deriv (fun t => f (bump d s x) (bump e t y)) 0) 0

open Classical in
/-- One entry of a derivative kernel (contract of `mlkernels`: the derivative of the kernel as a function of
its inputs, which must be single-output). The kernel must return on the line along which it is
differentiated. -/
noncomputable def diffEntry (k : KExpr) (d e : Option ℕ) (x y : Pt) : Option ℝ :=
  if (∀ i ∈ d, i < x.length) ∧ (∀ i ∈ e, i < y.length) ∧
      ∀ s t, (scalK r k (bumps d s x) (bumps e t y)).isSome then
    some (derivK (fun x y => (scalK r k x y).getD 0) d e x y)
  else none

open Classical in
/-- One entry of a derivative mean. -/
noncomputable def diffMEntry (a : MExpr) (d : ℕ) (x : Pt) : Option ℝ :=
  if d < x.length ∧ ∀ s, (scalM r a (bump d s x)).isSome then
    some (deriv (fun s => (scalM r a (bump d s x)).getD 0) 0)
  else none

open Classical in
/-- The matrix of derivatives. -/
noncomputable def diffMat (k : KExpr) (d e : Option ℕ) (xs ys : List Pt) : Option Mat :=
  if ∀ x ∈ xs, ∀ y ∈ ys, (diffEntry r k d e x y).isSome then
    some ⟨xs.length, ys.length, fun i j => if i < xs.length ∧ j < ys.length then
      (diffEntry r k d e (xs.getD i []) (ys.getD j [])).getD 0 else 0⟩
  else none

open Classical in
/-- `K_z = kzz(z) + noise`, if it can be factorised (`Observations.K_x`,
`stheno/model/observations.py:136-141`, and lines 287 and 300). -/
noncomputable def stepKz (kzz : KExpr) (z : Input) (noise : Mat) : Option Mat := do
  let A ← r.K kzz z z
  let K ← A.add noise
  if K.r = K.c ∧ (K.sq K.r).PosDef then pure K else none

/-- `K_x_diag` (`stheno/model/observations.py:304`), which DTC does not need. -/
noncomputable def stepKx (kxx : KExpr) (o : PseudoData) (k : ℕ) : Option (Fin k → ℝ) :=
  match o.method with
  | .dtc => some 0
  | _ => do
    let v ← r.D kxx o.x o.x
    if v.length = k then pure (fun j => v.getD j 0) else none

/-- The inputs of `_compute` as matrices (`stheno/model/observations.py:279-306`). -/
structure Ingredients where
  n : ℕ
  k : ℕ
  Kz : Matrix (Fin n) (Fin n) ℝ
  Kzx : Matrix (Fin n) (Fin k) ℝ
  kx : Fin k → ℝ
  noise : Fin k → ℝ

open Classical in
/-- `_compute` up to line 316 of `stheno/model/observations.py`. The entries of `K_n` must be positive
(otherwise the code returns infinities or NaNs). -/
noncomputable def stepIngredients (kzz kzx kxx : KExpr) (o : PseudoData) : Option Ingredients := do
  let K ← stepKz r kzz o.z o.noiseZ
  let Z ← r.K kzx o.z o.x
  if Z.r = K.r ∧ o.noiseX.mat.r = Z.c ∧ o.noiseX.mat.c = Z.c then do
    let kx ← stepKx r kxx o Z.c
    if ∀ j, 0 < knDiag o.method (K.sq K.r) (fun i j => Z.e i j : Matrix (Fin K.r) (Fin Z.c) ℝ) kx
        (fun j => o.noiseX.mat.e j j) j then
      pure ⟨K.r, Z.c, K.sq K.r, fun i j => Z.e i j, kx, fun j => o.noiseX.mat.e j j⟩
    else none
  else none

/-- `self._A` for the ingredients. -/
noncomputable def Ingredients.A (o : PseudoData) (g : Ingredients) : Matrix (Fin g.n) (Fin g.n) ℝ :=
  subspaceA o.method g.Kz g.Kzx g.kx g.noise

/-- `pairwise(k, x, y)` for tuples (`stheno/mo/input.py:7-9`). -/
def tupK (k : KExpr) (xs ys : List Input) : Option Mat := do
  let rows ← xs.mapM fun x => do
    let row ← ys.mapM fun y => r.K k x y
    Mat.hcatL row
  Mat.vcatL rows

/-- `pairwise(k, x, y)` for inputs that are not tuples. -/
noncomputable def stepKAtom : KExpr → Input → Input → Option Mat
  | .prim k, .num xs, .num ys =>
    some ⟨xs.length, ys.length, fun i j => k (xs.getD i []) (ys.getD j [])⟩
  | .prim _, _, _ => none
  | .zero, x, y => some ⟨numElements x, numElements y, fun _ _ => 0⟩
  -- `stheno/mo/kernel.py:39-56`
  | .mok m ps, .num xs, .num ys =>
    r.K (.mok m ps) (.tup (ps.map (.fdd · (.num xs)))) (.tup (ps.map (.fdd · (.num ys))))
  | .mok m ps, .fdd p x, .num ys =>
    r.K (.mok m ps) (.tup [.fdd p x]) (.tup (ps.map (.fdd · (.num ys))))
  | .mok m ps, .num xs, .fdd q y =>
    r.K (.mok m ps) (.tup (ps.map (.fdd · (.num xs)))) (.tup [.fdd q y])
  | .mok m _, .fdd p x, .fdd q y => do r.K (← lk m p q) x y
  | .mok _ _, _, _ => none
  -- `stheno/mo/adk.py:49-51`
  | .adk k, x, y => r.K k x y
  | .add a b, x, y => do
    let A ← r.K a x y
    let B ← r.K b x y
    A.add B
  | .mul a b, x, y => do
    let A ← r.K a x y
    let B ← r.K b x y
    A.mul B
  | .scale c k, x, y => (r.K k x y).map (Mat.smul c)
  | .tprod f g, x, y => do
    let u ← stepFn lm r f x
    let v ← stepFn lm r g y
    pure ⟨u.length, v.length, fun i j => u.getD i 0 * v.getD j 0⟩
  | .rev k, x, y => (r.K k y x).map Mat.tr
  | .pre t u k, x, y => do
    let x' ← t.apply x
    let y' ← u.apply y
    r.K k x' y'
  | .diff d e k, .num xs, .num ys => diffMat r k d e xs ys
  | .diff _ _ _, _, _ => none
  | .post kij kzi kzj z kzz noise, x, y => do
    let A ← r.K kij x y
    let K ← stepKz r kzz z noise
    let B ← r.K kzi z x
    let C ← r.K kzj z y
    A.sub (← Mat.quad (K.sq K.r)⁻¹ B C)
  | .pseudo kij kzi kzj kzz kzx kxx o, x, y => do
    let A ← r.K kij x y
    let g ← stepIngredients r kzz kzx kxx o
    let B ← r.K kzi o.z x
    let C ← r.K kzj o.z y
    let P ← A.sub (← Mat.quad g.Kz⁻¹ B C)
    P.add (← Mat.quad (g.A o)⁻¹ B C)

/-- `pairwise(k, x, y)`: tuples first (`stheno/mo/input.py:7-19`, `precedence=1`). -/
noncomputable def stepK (k : KExpr) : Input → Input → Option Mat
  | .tup xs, .tup ys => tupK r k xs ys
  | .tup xs, y => tupK r k xs [y]
  | x, .tup ys => tupK r k [x] ys
  | x, y => stepKAtom lm lk r k x y

/-- `elwise(k, x, y)` for tuples (`stheno/mo/input.py:22-26`). -/
def tupD (k : KExpr) (xs ys : List Input) : Option (List ℝ) :=
  if xs.length = ys.length ∧ xs ≠ [] then do
    let vs ← (xs.zip ys).mapM fun xy => r.D k xy.1 xy.2
    pure vs.flatten
  else none

/-- `elwise(k, x, y)` for inputs that are not tuples. -/
noncomputable def stepDAtom : KExpr → Input → Input → Option (List ℝ)
  | .prim k, .num xs, .num ys =>
    if xs.length = ys.length then some (List.zipWith k xs ys) else none
  | .prim _, _, _ => none
  | .zero, x, y => if numElements x = numElements y then some (List.replicate (numElements x) 0) else none
  -- `stheno/mo/kernel.py:59-76`
  | .mok m ps, .num xs, .num ys =>
    r.D (.mok m ps) (.tup (ps.map (.fdd · (.num xs)))) (.tup (ps.map (.fdd · (.num ys))))
  | .mok m _, .fdd p x, .fdd q y => do r.D (← lk m p q) x y
  | .mok _ _, _, _ => none
  -- `stheno/mo/adk.py:54-56`
  | .adk k, x, y => r.D k x y
  | .add a b, x, y => do
    let u ← r.D a x y
    let v ← r.D b x y
    zipCol (· + ·) u v
  | .mul a b, x, y => do
    let u ← r.D a x y
    let v ← r.D b x y
    zipCol (· * ·) u v
  | .scale c k, x, y => (r.D k x y).map (·.map (c * ·))
  | .tprod f g, x, y => do
    let u ← stepFn lm r f x
    let v ← stepFn lm r g y
    zipCol (· * ·) u v
  | .rev k, x, y => r.D k y x
  | .pre t u k, x, y => do
    let x' ← t.apply x
    let y' ← u.apply y
    r.D k x' y'
  | .diff d e k, .num xs, .num ys =>
    if xs.length = ys.length then (xs.zip ys).mapM fun xy => diffEntry r k d e xy.1 xy.2 else none
  | .diff _ _ _, _, _ => none
  | .post kij kzi kzj z kzz noise, x, y => do
    let v ← r.D kij x y
    let K ← stepKz r kzz z noise
    let B ← r.K kzi z x
    let C ← r.K kzj z y
    zipCol (· - ·) v (← Mat.quadDiag (K.sq K.r)⁻¹ B C)
  | .pseudo kij kzi kzj kzz kzx kxx o, x, y => do
    let v ← r.D kij x y
    let g ← stepIngredients r kzz kzx kxx o
    let B ← r.K kzi o.z x
    let C ← r.K kzj o.z y
    let w ← zipCol (· - ·) v (← Mat.quadDiag g.Kz⁻¹ B C)
    zipCol (· + ·) w (← Mat.quadDiag (g.A o)⁻¹ B C)

/-- `elwise(k, x, y)`: tuples first (`stheno/mo/input.py:22-36`, `precedence=1`). -/
noncomputable def stepD (k : KExpr) : Input → Input → Option (List ℝ)
  | .tup xs, .tup ys => tupD r k xs ys
  | .tup xs, y => tupD r k xs [y]
  | x, .tup ys => tupD r k [x] ys
  | x, y => stepDAtom lm lk r k x y

/-- Calling a mean (contracts of `mlkernels`; `stheno/mo/mean.py:27-37` for `mom`). Means are not taken apart
at tuples, except by `mom`. -/
noncomputable def stepM : MExpr → Input → Option (List ℝ)
  | .zero, x => some (List.replicate (numElements x) 0)
  | .fn f, x => stepFn lm r f x
  | .mom m ps, .num xs => r.M (.mom m ps) (.tup (ps.map (.fdd · (.num xs))))
  | .mom m _, .fdd p x => do r.M (← lm m p) x
  | .mom m ps, .tup xs =>
    if xs = [] then none else (xs.mapM (r.M (.mom m ps))).map List.flatten
  | .add a b, x => do
    let u ← r.M a x
    let v ← r.M b x
    zipCol (· + ·) u v
  | .mul a b, x => do
    let u ← r.M a x
    let v ← r.M b x
    zipCol (· * ·) u v
  | .scale c a, x => (r.M a x).map (·.map (c * ·))
  | .pre t a, x => do r.M a (← t.apply x)
  | .diff d a, .num xs => xs.mapM (diffMEntry r a d)
  | .diff _ _, _ => none
  | .post mi mz kzi z kzz noise y, x => do
    let v ← r.M mi x
    let K ← stepKz r kzz z noise
    let mzv ← r.M mz z
    let B ← r.K kzi z x
    if mzv.length = K.r ∧ y.length = K.r then
      zipCol (· + ·) v (← Mat.tmulVec B ((K.sq K.r)⁻¹ *ᵥ fun a : Fin K.r => y.getD a 0 - mzv.getD a 0))
    else none
  | .pseudo mi mz mx kzi kzz kzx kxx o, x => do
    let v ← r.M mi x
    let g ← stepIngredients r kzz kzx kxx o
    let mzv ← r.M mz o.z
    let mxv ← r.M mx o.x
    let B ← r.K kzi o.z x
    if mzv.length = g.n ∧ mxv.length = g.k ∧ o.y.length = g.k then
      let mu : Fin g.n → ℝ := fun a => mzv.getD a 0 +
        muShift o.method g.Kz g.Kzx g.kx g.noise (fun j => o.y.getD j 0 - mxv.getD j 0) a
      zipCol (· + ·) v (← Mat.tmulVec B (g.Kz⁻¹ *ᵥ fun a : Fin g.n => mu a - mzv.getD a 0))
    else none

/-- One level of recursion. -/
noncomputable def step : Ev := ⟨stepM lm r, stepK lm lk r, stepD lm lk r⟩

end Step

/-- The evaluator that gives up everywhere. -/
def Ev.bot : Ev := ⟨fun _ _ => none, fun _ _ _ => none, fun _ _ _ => none⟩

/-- The evaluator with recursion depth `n`. -/
noncomputable def ev (lm : MId → PId → Option MExpr) (lk : MId → PId → PId → Option KExpr) : ℕ → Ev
  | 0 => .bot
  | n + 1 => step lm lk (ev lm lk n)

end Stheno
