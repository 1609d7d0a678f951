import Verif.BatchFdd

/-!
# Missing values and arrays with batch dimensions

How observations are made from values of which some are missing (`stheno/model/observations.py:64-79`), with `B.take` of FDDs (`stheno/model/fdd.py:125-148`,
`stheno/mo/kernel.py:83-99`), where inputs, noises and values are arrays of any rank. The functions are those of `Verif/Fdd.lean`.

Contracts of `lab`: `B.take` takes along the first axis, and raises if the mask is not a vector or does not have the length of this axis.

Simplification: taking from noises with batch dimensions raises.
-/

namespace Stheno

namespace Bat
open Ten

/-- `B.take(t, mask)`, along the first axis, which is the last one in `shape`. -/
def takeFirst {α : Type} (t : Ten α) (mask : List Bool) : Option (Ten α) :=
  if t.shape.getLast? = some mask.length then
    let is := pick (List.range mask.length) mask
    some ⟨t.shape.dropLast ++ [is.length], fun i => t.e (i.take (t.rank - 1) ++ [is.getD (i.getD (t.rank - 1) 0) 0])⟩
  else none

/-- `B.submatrix(t, mask)` for a matrix. -/
def submatrix (t : Ten ℝ) (mask : List Bool) : Option (Ten ℝ) :=
  match t.shape with
  | [c, r] =>
    if r = mask.length ∧ c = mask.length then
      let is := pick (List.range mask.length) mask
      some ⟨[is.length, is.length], fun i => t.e [is.getD (i.headD 0) 0, is.getD (i.tail.headD 0) 0]⟩
    else none
  | _ => none

/-- The loop over a tuple in `_take_x` (`stheno/model/fdd.py:140-148`): `tk` is the recursive call, `sz` is `infer_size`. -/
def btakeTup (tk : BInput → List Bool → Option BInput) (sz : BInput → Option ℕ) : List BInput → List Bool → Option (List BInput)
  | [], _ => some []
  | x :: xs, mask => do
    let s ← sz x
    let y ← tk x (mask.take s)
    let ys ← btakeTup tk sz xs (mask.drop s)
    pure (y :: ys)

/-- `_take_x` (`stheno/model/fdd.py:135-148`, `stheno/mo/kernel.py:83-99`): see `takeX`. -/
def btakeX (kern : PId → Option BKExpr) : ℕ → BKExpr → BInput → List Bool → Option BInput
  | 0, _, _, _ => none
  | n + 1, k, .tup xs, mask => do pure (.tup (← btakeTup (btakeX kern n k) (binferSize k) xs mask))
  | n + 1, .mok m ps, .num t, mask =>
    if ∀ p ∈ ps, (kern p).bind (binferSize · (.num t)) = some t.nrows then
      btakeX kern n (.mok m ps) (.tup (ps.map (.fdd · (.num t)))) mask
    else none
  | n + 1, .mok _ ps, .fdd p x, mask =>
    if p ∈ ps then do pure (.fdd p (← btakeX kern n (← kern p) x mask)) else none
  | _ + 1, _, .num t, mask => do pure (.num (← takeFirst t mask))
  | _ + 1, _, .fdd _ _, _ => none

/-- `B.take(fdd, mask)` (`stheno/model/fdd.py:125-132`). -/
def takeFdd (w : BWorld) (n : ℕ) (f : BFdd) (mask : List Bool) : Option BFdd := do
  let x ← btakeX (gpKernel w) n (← gpKernel w f.p) f.x mask
  mkFdd w f.p x (some (← submatrix f.noise mask))

open Classical in
/-- `AbstractObservations.__init__(fdd, y)` (`stheno/model/observations.py:64-79`), also if values are missing. If the values have batch dimensions, then the mask is not
a vector. -/
noncomputable def observeM (w : BWorld) (n : ℕ) (f : BFdd) (y : BVals) : Option BObs :=
  if y.ncols = 1 then
    if Whole y then observe f y
    else
      match y.uprank.shape with
      | [_, l] => do
        let mask := (List.range l).map fun i => (y.uprank.e [0, i]).isSome
        let f ← takeFdd w n f mask
        pure (.exact f.p f.x f.noise ((← takeFirst y.uprank mask).map (·.getD 0)))
      | _ => none
  else none

end Bat

end Stheno
