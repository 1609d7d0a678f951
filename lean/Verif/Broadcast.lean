import Verif.Fdd
import Verif.EvalMono
import Verif.Returns

/-!
# Evaluation with broadcasting and with checks of sizes

The evaluator of `Eval` leaves out two things. First, sums, differences and products of arrays of different shapes: a single row or column is repeated
(broadcasting, contract of `lab` and `matrix`). Second, a multi-output kernel or mean at a numeric input makes the FDDs `p(x)` of its processes
(`stheno/mo/kernel.py:39-51`, `59-61`, `stheno/mo/mean.py:28-29`), which raises if the size of `p` cannot be inferred (`stheno/model/fdd.py:63`). The
evaluator in this file has both: `bc` says whether shapes are broadcast, and `ok p` whether the size of `p` can be inferred. The elementwise zero kernel looks only at
the first input when `bc` is set (contract of `mlkernels`).

Simplification: the inputs of `_compute` (`stepIngredients`), Cholesky solves and quadratic forms still require equal sizes.
-/

namespace Stheno

open Matrix

/-- The size of a dimension after broadcasting. -/
def bdim (a b : ℕ) : Option ℕ := if a = b then some a else if a = 1 then some b else if b = 1 then some a else none

/-- The index into a dimension of size `a` after broadcasting. -/
def bidx (a i : ℕ) : ℕ := if a = 1 then 0 else i

/-- Combine two matrices entry by entry; shapes are broadcast if `bc`, and must be equal otherwise. -/
def Mat.zipB (bc : Bool) (f : ℝ → ℝ → ℝ) (A B : Mat) : Option Mat :=
  if A.r = B.r ∧ A.c = B.c then some ⟨A.r, A.c, fun i j => f (A.e i j) (B.e i j)⟩
  else if bc then do
    let r ← bdim A.r B.r
    let c ← bdim A.c B.c
    pure ⟨r, c, fun i j => f (A.e (bidx A.r i) (bidx A.c j)) (B.e (bidx B.r i) (bidx B.c j))⟩
  else none

/-- Combine two columns entry by entry, with broadcasting if `bc`. -/
def zipColB (bc : Bool) (f : ℝ → ℝ → ℝ) (u v : List ℝ) : Option (List ℝ) :=
  if u.length = v.length then some (List.zipWith f u v)
  else if bc then do
    let n ← bdim u.length v.length
    pure ((List.range n).map fun i => f (u.getD (bidx u.length i) 0) (v.getD (bidx v.length i) 0))
  else none

section Step
variable (bc : Bool) (ok : PId → Prop) (lm : MId → PId → Option MExpr) (lk : MId → PId → PId → Option KExpr) (r : Ev)

open Classical in
/-- `stepKz`, with broadcasting. -/
noncomputable def stepKzB (kzz : KExpr) (z : Input) (noise : Mat) : Option Mat := do
  let A ← r.K kzz z z
  let K ← A.zipB bc (· + ·) noise
  if K.r = K.c ∧ (K.sq K.r).PosDef then pure K else none

open Classical in
/-- `stepKAtom`, with broadcasting and checks. -/
noncomputable def stepKAtomB : KExpr → Input → Input → Option Mat
  | .mok m ps, .num xs, .num ys =>
    if ∀ p ∈ ps, ok p then r.K (.mok m ps) (.tup (ps.map (.fdd · (.num xs)))) (.tup (ps.map (.fdd · (.num ys)))) else none
  | .mok m ps, .fdd p x, .num ys => if ∀ p ∈ ps, ok p then r.K (.mok m ps) (.tup [.fdd p x]) (.tup (ps.map (.fdd · (.num ys)))) else none
  | .mok m ps, .num xs, .fdd q y => if ∀ p ∈ ps, ok p then r.K (.mok m ps) (.tup (ps.map (.fdd · (.num xs)))) (.tup [.fdd q y]) else none
  | .add a b, x, y => do
    let A ← r.K a x y
    let B ← r.K b x y
    A.zipB bc (· + ·) B
  | .mul a b, x, y => do
    let A ← r.K a x y
    let B ← r.K b x y
    A.zipB bc (· * ·) B
  | .post kij kzi kzj z kzz noise, x, y => do
    let A ← r.K kij x y
    let K ← stepKzB bc r kzz z noise
    let B ← r.K kzi z x
    let C ← r.K kzj z y
    A.zipB bc (· - ·) (← Mat.quad (K.sq K.r)⁻¹ B C)
  | .pseudo kij kzi kzj kzz kzx kxx o, x, y => do
    let A ← r.K kij x y
    let g ← stepIngredients r kzz kzx kxx o
    let B ← r.K kzi o.z x
    let C ← r.K kzj o.z y
    let P ← A.zipB bc (· - ·) (← Mat.quad g.Kz⁻¹ B C)
    P.zipB bc (· + ·) (← Mat.quad (g.A o)⁻¹ B C)
  | k, x, y => stepKAtom lm lk r k x y

/-- `stepK`, with broadcasting and checks. -/
noncomputable def stepKB (k : KExpr) : Input → Input → Option Mat
  | .tup xs, .tup ys => tupK r k xs ys
  | .tup xs, y => tupK r k xs [y]
  | x, .tup ys => tupK r k [x] ys
  | x, y => stepKAtomB bc ok lm lk r k x y

open Classical in
/-- `stepDAtom`, with broadcasting and checks. -/
noncomputable def stepDAtomB : KExpr → Input → Input → Option (List ℝ)
  | .zero, x, y => if bc ∨ numElements x = numElements y then some (List.replicate (numElements x) 0) else none
  | .mok m ps, .num xs, .num ys =>
    if ∀ p ∈ ps, ok p then r.D (.mok m ps) (.tup (ps.map (.fdd · (.num xs)))) (.tup (ps.map (.fdd · (.num ys)))) else none
  | .add a b, x, y => do
    let u ← r.D a x y
    let v ← r.D b x y
    zipColB bc (· + ·) u v
  | .mul a b, x, y => do
    let u ← r.D a x y
    let v ← r.D b x y
    zipColB bc (· * ·) u v
  | .tprod f g, x, y => do
    let u ← stepFn lm r f x
    let v ← stepFn lm r g y
    zipColB bc (· * ·) u v
  | .post kij kzi kzj z kzz noise, x, y => do
    let v ← r.D kij x y
    let K ← stepKzB bc r kzz z noise
    let B ← r.K kzi z x
    let C ← r.K kzj z y
    zipColB bc (· - ·) v (← Mat.quadDiag (K.sq K.r)⁻¹ B C)
  | .pseudo kij kzi kzj kzz kzx kxx o, x, y => do
    let v ← r.D kij x y
    let g ← stepIngredients r kzz kzx kxx o
    let B ← r.K kzi o.z x
    let C ← r.K kzj o.z y
    let w ← zipColB bc (· - ·) v (← Mat.quadDiag g.Kz⁻¹ B C)
    zipColB bc (· + ·) w (← Mat.quadDiag (g.A o)⁻¹ B C)
  | k, x, y => stepDAtom lm lk r k x y

/-- `stepD`, with broadcasting and checks. -/
noncomputable def stepDB (k : KExpr) : Input → Input → Option (List ℝ)
  | .tup xs, .tup ys => tupD r k xs ys
  | .tup xs, y => tupD r k xs [y]
  | x, .tup ys => tupD r k [x] ys
  | x, y => stepDAtomB bc ok lm lk r k x y

open Classical in
/-- `stepM`, with broadcasting and checks. -/
noncomputable def stepMB : MExpr → Input → Option (List ℝ)
  | .mom m ps, .num xs => if ∀ p ∈ ps, ok p then r.M (.mom m ps) (.tup (ps.map (.fdd · (.num xs)))) else none
  | .add a b, x => do
    let u ← r.M a x
    let v ← r.M b x
    zipColB bc (· + ·) u v
  | .mul a b, x => do
    let u ← r.M a x
    let v ← r.M b x
    zipColB bc (· * ·) u v
  | .post mi mz kzi z kzz noise y, x => do
    let v ← r.M mi x
    let K ← stepKzB bc r kzz z noise
    let mzv ← r.M mz z
    let B ← r.K kzi z x
    let d ← zipColB bc (· - ·) y mzv
    if d.length = K.r then
      zipColB bc (· + ·) v (← Mat.tmulVec B ((K.sq K.r)⁻¹ *ᵥ fun a : Fin K.r => d.getD a 0))
    else none
  | .pseudo mi mz mx kzi kzz kzx kxx o, x => do
    let v ← r.M mi x
    let g ← stepIngredients r kzz kzx kxx o
    let mzv ← r.M mz o.z
    let mxv ← r.M mx o.x
    let B ← r.K kzi o.z x
    if mzv.length = g.n ∧ mxv.length = g.k ∧ o.y.length = g.k then
      let mu : Fin g.n → ℝ := fun a => mzv.getD a 0 +
        muShift o.method g.Kz g.Kzx g.kx g.noise (fun j => o.y.getD j 0 - mxv.getD j 0) a
      zipColB bc (· + ·) v (← Mat.tmulVec B (g.Kz⁻¹ *ᵥ fun a : Fin g.n => mu a - mzv.getD a 0))
    else none
  | a, x => stepM lm r a x

end Step

/-- `ev`, with broadcasting and checks. -/
noncomputable def evB (bc : Bool) (ok : PId → Prop) (lm : MId → PId → Option MExpr) (lk : MId → PId → PId → Option KExpr) : ℕ → Ev
  | 0 => .bot
  | n + 1 => ⟨stepMB bc ok lm (evB bc ok lm lk n), stepKB bc ok lm lk (evB bc ok lm lk n), stepDB bc ok lm lk (evB bc ok lm lk n)⟩

/-- `infer_size(p.kernel, x)` returns for numeric `x` (`stheno/mo/infer.py:35-40`). -/
def Inferable (w : World) (p : PId) : Prop := ∃ k d, gpKernel w p = some k ∧ dims k = some (some d)

/-- `measure.means[p](x)` returns `v`, with checks, and with broadcasting if `bc`. -/
def MeanCallB (bc : Bool) (w : World) (m : MId) (p : PId) (x : Input) (v : List ℝ) : Prop :=
  ∃ a n, meanAt w m p = some a ∧ (evB bc (Inferable w) (meanAt w) (kernelAt w) n).M a x = some v

/-- `measure.kernels[p, q](x, y)` returns `A`, with checks, and with broadcasting if `bc`. -/
def KernelCallB (bc : Bool) (w : World) (m : MId) (p q : PId) (x y : Input) (A : Mat) : Prop :=
  ∃ k n, kernelAt w m p q = some k ∧ (evB bc (Inferable w) (meanAt w) (kernelAt w) n).K k x y = some A

/-- `measure.kernels[p, q].elwise(x, y)` returns `u`, with checks, and with broadcasting if `bc`. -/
def ElwiseCallB (bc : Bool) (w : World) (m : MId) (p q : PId) (x y : Input) (u : List ℝ) : Prop :=
  ∃ k n, kernelAt w m p q = some k ∧ (evB bc (Inferable w) (meanAt w) (kernelAt w) n).D k x y = some u

/-! ## Relations between the evaluators -/

/-- Without broadcasting, shapes must be equal; with broadcasting, equal shapes give the same. -/
theorem Mat.zipB_add (bc : Bool) (A B : Mat) : OLe (A.add B) (A.zipB bc (· + ·) B) := by
  intro C hC
  unfold Mat.add at hC
  unfold Mat.zipB
  split at hC
  · next h => rw [if_pos h]; exact hC
  · cases hC

theorem Mat.zipB_sub (bc : Bool) (A B : Mat) : OLe (A.sub B) (A.zipB bc (· - ·) B) := by
  intro C hC
  unfold Mat.sub at hC
  unfold Mat.zipB
  split at hC
  · next h => rw [if_pos h]; exact hC
  · cases hC

theorem Mat.zipB_mul (bc : Bool) (A B : Mat) : OLe (A.mul B) (A.zipB bc (· * ·) B) := by
  intro C hC
  unfold Mat.mul at hC
  unfold Mat.zipB
  split at hC
  · next h => rw [if_pos h]; exact hC
  · cases hC

theorem zipColB_zip (bc : Bool) (f : ℝ → ℝ → ℝ) (u v : List ℝ) : OLe (zipCol f u v) (zipColB bc f u v) := by
  intro C hC
  unfold zipCol at hC
  unfold zipColB
  split at hC
  · next h => rw [if_pos h]; exact hC
  · cases hC

theorem Mat.zipB_false (f : ℝ → ℝ → ℝ) (A B : Mat) :
    A.zipB false f B = if A.r = B.r ∧ A.c = B.c then some ⟨A.r, A.c, fun i j => f (A.e i j) (B.e i j)⟩ else none := by
  unfold Mat.zipB
  simp

theorem zipColB_false (f : ℝ → ℝ → ℝ) (u v : List ℝ) : zipColB false f u v = zipCol f u v := by
  unfold zipColB zipCol
  simp

section
variable {bc : Bool} {ok : PId → Prop} {lm : MId → PId → Option MExpr} {lk : MId → PId → PId → Option KExpr} {r r' : Ev}

theorem stepKzB_mono (h : r.Le r') (k : KExpr) (z : Input) (noise : Mat) : OLe (stepKzB bc r k z noise) (stepKzB bc r' k z noise) :=
  (h.K _ _ _).bind fun _ => OLe.rfl

theorem ite_mono {α : Type} {c : Prop} {_ : Decidable c} {a b : Option α} (h : OLe a b) : OLe (if c then a else none) (if c then b else none) := by
  split
  · exact h
  · exact OLe.rfl

theorem stepKAtomB_mono (h : r.Le r') (k : KExpr) (x y : Input) : OLe (stepKAtomB bc ok lm lk r k x y) (stepKAtomB bc ok lm lk r' k x y) := by
  have e := stepKAtom_mono (lm := lm) (lm' := lm) (lk := lk) (lk' := lk) (fun _ _ => OLe.rfl) (fun _ _ _ => OLe.rfl) h k x y
  cases k with
  | mok m ps => cases x <;> cases y <;> first | exact e | exact ite_mono (h.K _ _ _)
  | add a b => exact (h.K _ _ _).bind fun _ => (h.K _ _ _).bind fun _ => OLe.rfl
  | mul a b => exact (h.K _ _ _).bind fun _ => (h.K _ _ _).bind fun _ => OLe.rfl
  | post kij kzi kzj z kzz noise =>
    exact (h.K _ _ _).bind fun _ => (stepKzB_mono h _ _ _).bind fun _ => (h.K _ _ _).bind fun _ => (h.K _ _ _).bind fun _ => OLe.rfl
  | pseudo kij kzi kzj kzz kzx kxx o =>
    exact (h.K _ _ _).bind fun _ => (stepIngredients_mono h _ _ _ _).bind fun _ => (h.K _ _ _).bind fun _ => (h.K _ _ _).bind fun _ => OLe.rfl
  | _ => exact e

theorem stepDAtomB_mono (h : r.Le r') (k : KExpr) (x y : Input) : OLe (stepDAtomB bc ok lm lk r k x y) (stepDAtomB bc ok lm lk r' k x y) := by
  have e := stepDAtom_mono (lm := lm) (lm' := lm) (lk := lk) (lk' := lk) (fun _ _ => OLe.rfl) (fun _ _ _ => OLe.rfl) h k x y
  cases k with
  | zero => exact OLe.rfl
  | mok m ps => cases x <;> cases y <;> first | exact e | exact ite_mono (h.D _ _ _)
  | add a b => exact (h.D _ _ _).bind fun _ => (h.D _ _ _).bind fun _ => OLe.rfl
  | mul a b => exact (h.D _ _ _).bind fun _ => (h.D _ _ _).bind fun _ => OLe.rfl
  | tprod f g => exact (stepFn_mono (fun _ _ => OLe.rfl) h _ _).bind fun _ => (stepFn_mono (fun _ _ => OLe.rfl) h _ _).bind fun _ => OLe.rfl
  | post kij kzi kzj z kzz noise =>
    exact (h.D _ _ _).bind fun _ => (stepKzB_mono h _ _ _).bind fun _ => (h.K _ _ _).bind fun _ => (h.K _ _ _).bind fun _ => OLe.rfl
  | pseudo kij kzi kzj kzz kzx kxx o =>
    exact (h.D _ _ _).bind fun _ => (stepIngredients_mono h _ _ _ _).bind fun _ => (h.K _ _ _).bind fun _ => (h.K _ _ _).bind fun _ => OLe.rfl
  | _ => exact e

theorem stepMB_mono (h : r.Le r') (a : MExpr) (x : Input) : OLe (stepMB bc ok lm r a x) (stepMB bc ok lm r' a x) := by
  have e := stepM_mono (lm := lm) (lm' := lm) (fun _ _ => OLe.rfl) h a x
  cases a with
  | mom m ps => cases x <;> first | exact e | exact ite_mono (h.M _ _)
  | add a b => exact (h.M _ _).bind fun _ => (h.M _ _).bind fun _ => OLe.rfl
  | mul a b => exact (h.M _ _).bind fun _ => (h.M _ _).bind fun _ => OLe.rfl
  | post mi mz kzi z kzz noise y =>
    exact (h.M _ _).bind fun _ => (stepKzB_mono h _ _ _).bind fun _ => (h.M _ _).bind fun _ => (h.K _ _ _).bind fun _ => OLe.rfl
  | pseudo mi mz mx kzi kzz kzx kxx o =>
    exact (h.M _ _).bind fun _ => (stepIngredients_mono h _ _ _ _).bind fun _ => (h.M _ _).bind fun _ => (h.M _ _).bind fun _ => (h.K _ _ _).bind fun _ => OLe.rfl
  | _ => exact e

theorem evB_succ : ∀ n, (evB bc ok lm lk n).Le (evB bc ok lm lk (n + 1))
  | 0 => Ev.bot_le _
  | n + 1 => by
    have ih := evB_succ n
    refine ⟨stepMB_mono ih, fun k x y => ?_, fun k x y => ?_⟩
    · cases x <;> cases y <;> first | exact tupK_mono ih _ _ _ | exact stepKAtomB_mono ih _ _ _
    · cases x <;> cases y <;> first | exact tupD_mono ih _ _ _ | exact stepDAtomB_mono ih _ _ _

/-- Evaluation is monotone in the recursion depth. -/
theorem evB_le {n n' : ℕ} (h : n ≤ n') : (evB bc ok lm lk n).Le (evB bc ok lm lk n') := by
  induction h with
  | refl => exact ⟨fun _ _ => OLe.rfl, fun _ _ _ => OLe.rfl, fun _ _ _ => OLe.rfl⟩
  | step _ ih => exact ih.trans (evB_succ _)

/-! ### Checks only reject -/

theorem Mat.zipB_add_le (A B : Mat) : OLe (A.zipB false (· + ·) B) (A.add B) := by rw [Mat.zipB_false]; exact OLe.rfl

theorem Mat.zipB_sub_le (A B : Mat) : OLe (A.zipB false (· - ·) B) (A.sub B) := by rw [Mat.zipB_false]; exact OLe.rfl

theorem Mat.zipB_mul_le (A B : Mat) : OLe (A.zipB false (· * ·) B) (A.mul B) := by rw [Mat.zipB_false]; exact OLe.rfl

theorem zipColB_le (f : ℝ → ℝ → ℝ) (u v : List ℝ) : OLe (zipColB false f u v) (zipCol f u v) := by rw [zipColB_false]; exact OLe.rfl

theorem ite_le {α : Type} {c : Prop} {_ : Decidable c} {a b : Option α} (h : OLe a b) : OLe (if c then a else none) b := by
  split
  · exact h
  · exact fun _ h => nomatch h

theorem stepKzB_le (h : r.Le r') (k : KExpr) (z : Input) (noise : Mat) : OLe (stepKzB false r k z noise) (stepKz r' k z noise) :=
  (h.K _ _ _).bind fun _ => (Mat.zipB_add_le _ _).bind fun _ => OLe.rfl

/-- Differences of columns. -/
theorem getD_zipWith_sub {y v : List ℝ} (e : y.length = v.length) {i : ℕ} (hi : i < y.length) :
    (List.zipWith (· - ·) y v).getD i 0 = y.getD i 0 - v.getD i 0 := by
  have hj : i < v.length := e ▸ hi
  have hk : i < (List.zipWith (· - ·) y v).length := by rw [List.length_zipWith, ← e, min_self]; exact hi
  rw [List.getD_eq_getElem?_getD, List.getD_eq_getElem?_getD, List.getD_eq_getElem?_getD, List.getElem?_eq_getElem hk, List.getElem?_eq_getElem hi,
    List.getElem?_eq_getElem hj, List.getElem_zipWith]
  rfl

theorem stepKAtomB_le (h : r.Le r') (k : KExpr) (x y : Input) : OLe (stepKAtomB false ok lm lk r k x y) (stepKAtom lm lk r' k x y) := by
  have e := stepKAtom_mono (lm := lm) (lm' := lm) (lk := lk) (lk' := lk) (fun _ _ => OLe.rfl) (fun _ _ _ => OLe.rfl) h k x y
  cases k with
  | mok m ps => cases x <;> cases y <;> first | exact e | exact ite_le (h.K _ _ _)
  | add a b => exact (h.K _ _ _).bind fun _ => (h.K _ _ _).bind fun _ => Mat.zipB_add_le _ _
  | mul a b => exact (h.K _ _ _).bind fun _ => (h.K _ _ _).bind fun _ => Mat.zipB_mul_le _ _
  | post kij kzi kzj z kzz noise =>
    exact (h.K _ _ _).bind fun _ => (stepKzB_le h _ _ _).bind fun _ => (h.K _ _ _).bind fun _ => (h.K _ _ _).bind fun _ => OLe.rfl.bind fun _ => Mat.zipB_sub_le _ _
  | pseudo kij kzi kzj kzz kzx kxx o =>
    exact (h.K _ _ _).bind fun _ => (stepIngredients_mono h _ _ _ _).bind fun _ => (h.K _ _ _).bind fun _ => (h.K _ _ _).bind fun _ =>
      OLe.rfl.bind fun _ => (Mat.zipB_sub_le _ _).bind fun _ => OLe.rfl.bind fun _ => Mat.zipB_add_le _ _
  | _ => exact e

theorem stepDAtomB_le (h : r.Le r') (k : KExpr) (x y : Input) : OLe (stepDAtomB false ok lm lk r k x y) (stepDAtom lm lk r' k x y) := by
  have e := stepDAtom_mono (lm := lm) (lm' := lm) (lk := lk) (lk' := lk) (fun _ _ => OLe.rfl) (fun _ _ _ => OLe.rfl) h k x y
  cases k with
  | zero => simp only [stepDAtomB, stepDAtom, Bool.false_eq_true, false_or]; exact OLe.rfl
  | mok m ps => cases x <;> cases y <;> first | exact e | exact ite_le (h.D _ _ _)
  | add a b => exact (h.D _ _ _).bind fun _ => (h.D _ _ _).bind fun _ => zipColB_le _ _ _
  | mul a b => exact (h.D _ _ _).bind fun _ => (h.D _ _ _).bind fun _ => zipColB_le _ _ _
  | tprod f g => exact (stepFn_mono (fun _ _ => OLe.rfl) h _ _).bind fun _ => (stepFn_mono (fun _ _ => OLe.rfl) h _ _).bind fun _ => zipColB_le _ _ _
  | post kij kzi kzj z kzz noise =>
    exact (h.D _ _ _).bind fun _ => (stepKzB_le h _ _ _).bind fun _ => (h.K _ _ _).bind fun _ => (h.K _ _ _).bind fun _ => OLe.rfl.bind fun _ => zipColB_le _ _ _
  | pseudo kij kzi kzj kzz kzx kxx o =>
    exact (h.D _ _ _).bind fun _ => (stepIngredients_mono h _ _ _ _).bind fun _ => (h.K _ _ _).bind fun _ => (h.K _ _ _).bind fun _ =>
      OLe.rfl.bind fun _ => (zipColB_le _ _ _).bind fun _ => OLe.rfl.bind fun _ => zipColB_le _ _ _
  | _ => exact e

theorem stepMB_le (h : r.Le r') (a : MExpr) (x : Input) : OLe (stepMB false ok lm r a x) (stepM lm r' a x) := by
  have e := stepM_mono (lm := lm) (lm' := lm) (fun _ _ => OLe.rfl) h a x
  cases a with
  | mom m ps => cases x <;> first | exact e | exact ite_le (h.M _ _)
  | add a b => exact (h.M _ _).bind fun _ => (h.M _ _).bind fun _ => zipColB_le _ _ _
  | mul a b => exact (h.M _ _).bind fun _ => (h.M _ _).bind fun _ => zipColB_le _ _ _
  | post mi mz kzi z kzz noise y =>
    refine (h.M _ _).bind fun v => (stepKzB_le h _ _ _).bind fun K => (h.M _ _).bind fun mzv => (h.K _ _ _).bind fun B => fun u hu => ?_
    obtain ⟨d, hd, hu⟩ := bind_some hu
    rw [zipColB_false] at hd
    unfold zipCol at hd
    split at hd
    · next e =>
      cases hd
      split at hu
      · next hl =>
        rw [List.length_zipWith, ← e, min_self] at hl
        rw [if_pos ⟨e ▸ hl, hl⟩]
        obtain ⟨t, ht, hu⟩ := bind_some hu
        rw [zipColB_false] at hu
        rw [show (fun a : Fin K.r => y.getD a 0 - mzv.getD a 0) = fun a : Fin K.r => (List.zipWith (· - ·) y mzv).getD a 0 from
          funext fun a => (getD_zipWith_sub e (a.2.trans_eq hl.symm)).symm, ht]
        exact hu
      · cases hu
    · cases hd
  | pseudo mi mz mx kzi kzz kzx kxx o =>
    refine (h.M _ _).bind fun _ => (stepIngredients_mono h _ _ _ _).bind fun _ => (h.M _ _).bind fun _ => (h.M _ _).bind fun _ => (h.K _ _ _).bind fun _ => ?_
    exact ite_mono (OLe.rfl.bind fun _ => zipColB_le _ _ _)
  | _ => exact e

/-- Without broadcasting, what returns with checks returns without checks. -/
theorem evB_ev : ∀ n, (evB false ok lm lk n).Le (ev lm lk n)
  | 0 => Ev.bot_le _
  | n + 1 => by
    have ih := evB_ev n
    refine ⟨stepMB_le ih, fun k x y => ?_, fun k x y => ?_⟩
    · cases x <;> cases y <;> first | exact tupK_mono ih _ _ _ | exact stepKAtomB_le ih _ _ _
    · cases x <;> cases y <;> first | exact tupD_mono ih _ _ _ | exact stepDAtomB_le ih _ _ _

/-! ### Equal shapes are not broadcast -/

end

/-- The processes of multi-output kernels in an expression have `Q`. -/
def KExpr.Uses (Q : PId → Prop) : KExpr → Prop
  | .prim _ | .zero | .tprod _ _ => True
  | .mok _ ps => ∀ p ∈ ps, Q p
  | .adk k | .scale _ k | .rev k | .pre _ _ k | .diff _ _ k => k.Uses Q
  | .add a b | .mul a b => a.Uses Q ∧ b.Uses Q
  | .post kij kzi kzj _ kzz _ => kij.Uses Q ∧ kzi.Uses Q ∧ kzj.Uses Q ∧ kzz.Uses Q
  | .pseudo kij kzi kzj kzz kzx kxx _ => kij.Uses Q ∧ kzi.Uses Q ∧ kzj.Uses Q ∧ kzz.Uses Q ∧ kzx.Uses Q ∧ kxx.Uses Q

/-- The processes of multi-output means and kernels in an expression have `Q`. -/
def MExpr.Uses (Q : PId → Prop) : MExpr → Prop
  | .zero | .fn _ => True
  | .mom _ ps => ∀ p ∈ ps, Q p
  | .add a b | .mul a b => a.Uses Q ∧ b.Uses Q
  | .scale _ a | .pre _ a | .diff _ a => a.Uses Q
  | .post mi mz kzi _ kzz _ _ => mi.Uses Q ∧ mz.Uses Q ∧ kzi.Uses Q ∧ kzz.Uses Q
  | .pseudo mi mz mx kzi kzz kzx kxx _ => mi.Uses Q ∧ mz.Uses Q ∧ mx.Uses Q ∧ kzi.Uses Q ∧ kzz.Uses Q ∧ kzx.Uses Q ∧ kxx.Uses Q

/-- `r'` returns at least what `r` returns, for expressions with processes that have `Q`. -/
structure Ev.LeOn (Q : PId → Prop) (r r' : Ev) : Prop where
  M : ∀ a, a.Uses Q → ∀ x, OLe (r.M a x) (r'.M a x)
  K : ∀ k, k.Uses Q → ∀ x y, OLe (r.K k x y) (r'.K k x y)
  D : ∀ k, k.Uses Q → ∀ x y, OLe (r.D k x y) (r'.D k x y)

/-- An evaluator that only returns for expressions with processes that have `Q`. -/
noncomputable def Ev.only (Q : PId → Prop) (r : Ev) : Ev := by
  classical exact ⟨fun a x => if a.Uses Q then r.M a x else none, fun k x y => if k.Uses Q then r.K k x y else none, fun k x y => if k.Uses Q then r.D k x y else none⟩

section
variable {bc : Bool} {ok Q : PId → Prop} {lm : MId → PId → Option MExpr} {lk : MId → PId → PId → Option KExpr} {r r' : Ev}

theorem Ev.only_M {a : MExpr} (h : a.Uses Q) (x : Input) : (r.only Q).M a x = r.M a x := if_pos h

theorem Ev.only_K {k : KExpr} (h : k.Uses Q) (x y : Input) : (r.only Q).K k x y = r.K k x y := if_pos h

theorem Ev.only_D {k : KExpr} (h : k.Uses Q) (x y : Input) : (r.only Q).D k x y = r.D k x y := if_pos h

theorem Ev.LeOn.only (h : Ev.LeOn Q r r') : (r.only Q).Le r' where
  M a x := by
    by_cases hu : a.Uses Q
    · rw [Ev.only_M hu]; exact h.M a hu x
    · intro v hv; simp only [Ev.only, if_neg hu] at hv; cases hv
  K k x y := by
    by_cases hu : k.Uses Q
    · rw [Ev.only_K hu]; exact h.K k hu x y
    · intro v hv; simp only [Ev.only, if_neg hu] at hv; cases hv
  D k x y := by
    by_cases hu : k.Uses Q
    · rw [Ev.only_D hu]; exact h.D k hu x y
    · intro v hv; simp only [Ev.only, if_neg hu] at hv; cases hv

theorem stepFn_only (hm : ∀ m p a, lm m p = some a → a.Uses Q) (f : Fn) (x : Input) : stepFn lm (r.only Q) f x = stepFn lm r f x := by
  cases f with
  | user f => cases x <;> rfl
  | const c => rfl
  | meanOf m p =>
    simp only [stepFn]
    cases h : lm m p with
    | none => rfl
    | some a => exact Ev.only_M (hm _ _ _ h) x

theorem scalK_only {k : KExpr} (h : k.Uses Q) : scalK (r.only Q) k = scalK r k := by
  funext x y
  unfold scalK
  rw [Ev.only_K h]

theorem scalM_only {a : MExpr} (h : a.Uses Q) : scalM (r.only Q) a = scalM r a := by
  funext x
  unfold scalM
  rw [Ev.only_M h]

theorem diffEntry_only {k : KExpr} (h : k.Uses Q) (d e : Option ℕ) : diffEntry (r.only Q) k d e = diffEntry r k d e := by
  funext x y
  unfold diffEntry
  rw [scalK_only h]

theorem diffMEntry_only {a : MExpr} (h : a.Uses Q) (d : ℕ) : diffMEntry (r.only Q) a d = diffMEntry r a d := by
  funext x
  unfold diffMEntry
  rw [scalM_only h]

theorem diffMat_only {k : KExpr} (h : k.Uses Q) (d e : Option ℕ) (xs ys : List Pt) : diffMat (r.only Q) k d e xs ys = diffMat r k d e xs ys := by
  unfold diffMat
  rw [diffEntry_only h]

theorem stepKz_only {k : KExpr} (h : k.Uses Q) (z : Input) (N : Mat) : stepKz (r.only Q) k z N = stepKz r k z N := by
  unfold stepKz
  rw [Ev.only_K h]

theorem stepKx_only {k : KExpr} (h : k.Uses Q) (o : PseudoData) (n : ℕ) : stepKx (r.only Q) k o n = stepKx r k o n := by
  unfold stepKx
  rw [Ev.only_D h]

theorem stepIngredients_only {kzz kzx kxx : KExpr} (h : kzz.Uses Q) (h' : kzx.Uses Q) (h'' : kxx.Uses Q) (o : PseudoData) :
    stepIngredients (r.only Q) kzz kzx kxx o = stepIngredients r kzz kzx kxx o := by
  unfold stepIngredients
  rw [stepKz_only h]
  simp only [Ev.only_K h', stepKx_only h'']

theorem tupK_only {k : KExpr} (h : k.Uses Q) (xs ys : List Input) : tupK (r.only Q) k xs ys = tupK r k xs ys := by
  unfold tupK
  simp only [Ev.only_K h]

theorem tupD_only {k : KExpr} (h : k.Uses Q) (xs ys : List Input) : tupD (r.only Q) k xs ys = tupD r k xs ys := by
  unfold tupD
  simp only [Ev.only_D h]

theorem bind_congr_some {α β : Type} {a : Option α} {f g : α → Option β} (h : ∀ v, a = some v → f v = g v) : (a >>= f) = (a >>= g) := by
  cases a with
  | none => rfl
  | some v => exact h v rfl

theorem stepKAtom_only (hm : ∀ m p a, lm m p = some a → a.Uses Q) (hk : ∀ m p q k, lk m p q = some k → k.Uses Q) {k : KExpr} (h : k.Uses Q) (x y : Input) :
    stepKAtom lm lk (r.only Q) k x y = stepKAtom lm lk r k x y := by
  cases k with
  | prim k => cases x <;> cases y <;> rfl
  | zero => rfl
  | mok m ps =>
    cases x <;> cases y <;> first | rfl | exact Ev.only_K h _ _ | exact bind_congr_some fun v hv => Ev.only_K (hk _ _ _ _ hv) _ _
  | adk k => exact Ev.only_K (k := k) h _ _
  | add a b => simp only [stepKAtom, Ev.only_K h.1, Ev.only_K h.2]
  | mul a b => simp only [stepKAtom, Ev.only_K h.1, Ev.only_K h.2]
  | scale c k => simp only [stepKAtom, Ev.only_K (k := k) h]
  | tprod f g => simp only [stepKAtom, stepFn_only hm]
  | rev k => simp only [stepKAtom, Ev.only_K (k := k) h]
  | pre t u k => simp only [stepKAtom, Ev.only_K (k := k) h]
  | diff d e k => cases x <;> cases y <;> first | rfl | exact diffMat_only (k := k) h _ _ _ _
  | post kij kzi kzj z kzz noise =>
    obtain ⟨h1, h2, h3, h4⟩ := h
    simp only [stepKAtom, Ev.only_K h1, Ev.only_K h2, Ev.only_K h3, stepKz_only h4]
  | pseudo kij kzi kzj kzz kzx kxx o =>
    obtain ⟨h1, h2, h3, h4, h5, h6⟩ := h
    simp only [stepKAtom, Ev.only_K h1, Ev.only_K h2, Ev.only_K h3, stepIngredients_only h4 h5 h6]

theorem stepDAtom_only (hm : ∀ m p a, lm m p = some a → a.Uses Q) (hk : ∀ m p q k, lk m p q = some k → k.Uses Q) {k : KExpr} (h : k.Uses Q) (x y : Input) :
    stepDAtom lm lk (r.only Q) k x y = stepDAtom lm lk r k x y := by
  cases k with
  | prim k => cases x <;> cases y <;> rfl
  | zero => rfl
  | mok m ps =>
    cases x <;> cases y <;> first | rfl | exact Ev.only_D h _ _ | exact bind_congr_some fun v hv => Ev.only_D (hk _ _ _ _ hv) _ _
  | adk k => exact Ev.only_D (k := k) h _ _
  | add a b => simp only [stepDAtom, Ev.only_D h.1, Ev.only_D h.2]
  | mul a b => simp only [stepDAtom, Ev.only_D h.1, Ev.only_D h.2]
  | scale c k => simp only [stepDAtom, Ev.only_D (k := k) h]
  | tprod f g => simp only [stepDAtom, stepFn_only hm]
  | rev k => exact Ev.only_D (k := k) h _ _
  | pre t u k => simp only [stepDAtom, Ev.only_D (k := k) h]
  | diff d e k =>
    cases x <;> cases y <;> try rfl
    simp only [stepDAtom, diffEntry_only (k := k) h]
  | post kij kzi kzj z kzz noise =>
    obtain ⟨h1, h2, h3, h4⟩ := h
    simp only [stepDAtom, Ev.only_D h1, Ev.only_K h2, Ev.only_K h3, stepKz_only h4]
  | pseudo kij kzi kzj kzz kzx kxx o =>
    obtain ⟨h1, h2, h3, h4, h5, h6⟩ := h
    simp only [stepDAtom, Ev.only_D h1, Ev.only_K h2, Ev.only_K h3, stepIngredients_only h4 h5 h6]

theorem stepM_only (hm : ∀ m p a, lm m p = some a → a.Uses Q) {a : MExpr} (h : a.Uses Q) (x : Input) : stepM lm (r.only Q) a x = stepM lm r a x := by
  cases a with
  | zero => rfl
  | fn f => exact stepFn_only hm f x
  | mom m ps =>
    cases x with
    | num xs => exact Ev.only_M h _
    | fdd p x => exact bind_congr_some fun v hv => Ev.only_M (hm _ _ _ hv) _
    | tup xs => simp only [stepM, show (r.only Q).M (.mom m ps) = r.M (.mom m ps) from funext fun x => Ev.only_M h x]
  | add a b => simp only [stepM, Ev.only_M h.1, Ev.only_M h.2]
  | mul a b => simp only [stepM, Ev.only_M h.1, Ev.only_M h.2]
  | scale c a => simp only [stepM, Ev.only_M (a := a) h]
  | pre t a => simp only [stepM, Ev.only_M (a := a) h]
  | diff d a => cases x <;> first | rfl | simp only [stepM, diffMEntry_only (a := a) h]
  | post mi mz kzi z kzz noise y =>
    obtain ⟨h1, h2, h3, h4⟩ := h
    simp only [stepM, Ev.only_M h1, Ev.only_M h2, Ev.only_K h3, stepKz_only h4]
  | pseudo mi mz mx kzi kzz kzx kxx o =>
    obtain ⟨h1, h2, h3, h4, h5, h6, h7⟩ := h
    simp only [stepM, Ev.only_M h1, Ev.only_M h2, Ev.only_M h3, Ev.only_K h4, stepIngredients_only h5 h6 h7]

/-! Without restrictions on expressions: what returns with equal shapes returns with broadcasting, except for the checks. -/

theorem stepKz_leB (h : r.Le r') (k : KExpr) (z : Input) (noise : Mat) : OLe (stepKz r k z noise) (stepKzB bc r' k z noise) :=
  (h.K _ _ _).bind fun _ => (Mat.zipB_add bc _ _).bind fun _ => OLe.rfl

theorem le_ite {α : Type} {c : Prop} {_ : Decidable c} {a b : Option α} (hc : c) (h : OLe a b) : OLe a (if c then b else none) := by
  rw [if_pos hc]
  exact h

theorem stepKAtom_leB (h : r.Le r') {k : KExpr} (hq : k.Uses Q) (hQ : ∀ p, Q p → ok p) (x y : Input) :
    OLe (stepKAtom lm lk r k x y) (stepKAtomB bc ok lm lk r' k x y) := by
  have e := stepKAtom_mono (lm := lm) (lm' := lm) (lk := lk) (lk' := lk) (fun _ _ => OLe.rfl) (fun _ _ _ => OLe.rfl) h k x y
  cases k with
  | mok m ps => cases x <;> cases y <;> first | exact e | exact le_ite (fun p hp => hQ p (hq p hp)) (h.K _ _ _)
  | add a b => exact (h.K _ _ _).bind fun _ => (h.K _ _ _).bind fun _ => Mat.zipB_add _ _ _
  | mul a b => exact (h.K _ _ _).bind fun _ => (h.K _ _ _).bind fun _ => Mat.zipB_mul _ _ _
  | post kij kzi kzj z kzz noise =>
    exact (h.K _ _ _).bind fun _ => (stepKz_leB h _ _ _).bind fun _ => (h.K _ _ _).bind fun _ => (h.K _ _ _).bind fun _ => OLe.rfl.bind fun _ => Mat.zipB_sub _ _ _
  | pseudo kij kzi kzj kzz kzx kxx o =>
    exact (h.K _ _ _).bind fun _ => (stepIngredients_mono h _ _ _ _).bind fun _ => (h.K _ _ _).bind fun _ => (h.K _ _ _).bind fun _ =>
      OLe.rfl.bind fun _ => (Mat.zipB_sub _ _ _).bind fun _ => OLe.rfl.bind fun _ => Mat.zipB_add _ _ _
  | _ => exact e

theorem stepDAtom_leB (h : r.Le r') {k : KExpr} (hq : k.Uses Q) (hQ : ∀ p, Q p → ok p) (x y : Input) :
    OLe (stepDAtom lm lk r k x y) (stepDAtomB bc ok lm lk r' k x y) := by
  have e := stepDAtom_mono (lm := lm) (lm' := lm) (lk := lk) (lk' := lk) (fun _ _ => OLe.rfl) (fun _ _ _ => OLe.rfl) h k x y
  cases k with
  | zero =>
    intro v hv
    simp only [stepDAtom] at hv
    split at hv
    · next he => simp only [stepDAtomB, he, or_true, if_true]; exact (by rw [← he]; exact hv)
    · cases hv
  | mok m ps => cases x <;> cases y <;> first | exact e | exact le_ite (fun p hp => hQ p (hq p hp)) (h.D _ _ _)
  | add a b => exact (h.D _ _ _).bind fun _ => (h.D _ _ _).bind fun _ => zipColB_zip _ _ _ _
  | mul a b => exact (h.D _ _ _).bind fun _ => (h.D _ _ _).bind fun _ => zipColB_zip _ _ _ _
  | tprod f g => exact (stepFn_mono (fun _ _ => OLe.rfl) h _ _).bind fun _ => (stepFn_mono (fun _ _ => OLe.rfl) h _ _).bind fun _ => zipColB_zip _ _ _ _
  | post kij kzi kzj z kzz noise =>
    exact (h.D _ _ _).bind fun _ => (stepKz_leB h _ _ _).bind fun _ => (h.K _ _ _).bind fun _ => (h.K _ _ _).bind fun _ => OLe.rfl.bind fun _ => zipColB_zip _ _ _ _
  | pseudo kij kzi kzj kzz kzx kxx o =>
    exact (h.D _ _ _).bind fun _ => (stepIngredients_mono h _ _ _ _).bind fun _ => (h.K _ _ _).bind fun _ => (h.K _ _ _).bind fun _ =>
      OLe.rfl.bind fun _ => (zipColB_zip _ _ _ _).bind fun _ => OLe.rfl.bind fun _ => zipColB_zip _ _ _ _
  | _ => exact e

theorem stepM_leB (h : r.Le r') {a : MExpr} (hq : a.Uses Q) (hQ : ∀ p, Q p → ok p) (x : Input) : OLe (stepM lm r a x) (stepMB bc ok lm r' a x) := by
  have e := stepM_mono (lm := lm) (lm' := lm) (fun _ _ => OLe.rfl) h a x
  cases a with
  | mom m ps => cases x <;> first | exact e | exact le_ite (fun p hp => hQ p (hq p hp)) (h.M _ _)
  | add a b => exact (h.M _ _).bind fun _ => (h.M _ _).bind fun _ => zipColB_zip _ _ _ _
  | mul a b => exact (h.M _ _).bind fun _ => (h.M _ _).bind fun _ => zipColB_zip _ _ _ _
  | post mi mz kzi z kzz noise y =>
    refine (h.M _ _).bind fun v => (stepKz_leB h _ _ _).bind fun K => (h.M _ _).bind fun mzv => (h.K _ _ _).bind fun B => fun u hu => ?_
    split at hu
    · next hl =>
      have e : y.length = mzv.length := hl.2.trans hl.1.symm
      have hd : zipColB bc (· - ·) y mzv = some (List.zipWith (· - ·) y mzv) := by unfold zipColB; rw [if_pos e]
      rw [hd]
      obtain ⟨t, ht, hu⟩ := bind_some hu
      refine (if_pos (by rw [List.length_zipWith, ← e, min_self]; exact hl.2)).trans ?_
      rw [show (fun a : Fin K.r => (List.zipWith (· - ·) y mzv).getD a 0) = fun a : Fin K.r => y.getD a 0 - mzv.getD a 0 from
        funext fun a => getD_zipWith_sub e (a.2.trans_eq hl.2.symm), ht]
      exact zipColB_zip _ _ _ _ _ hu
    · cases hu
  | pseudo mi mz mx kzi kzz kzx kxx o =>
    refine (h.M _ _).bind fun _ => (stepIngredients_mono h _ _ _ _).bind fun _ => (h.M _ _).bind fun _ => (h.M _ _).bind fun _ => (h.K _ _ _).bind fun _ => ?_
    exact ite_mono (OLe.rfl.bind fun _ => zipColB_zip _ _ _ _)
  | _ => exact e

/-- If the sizes of all processes with `Q` can be inferred, and multi-output kernels and means are made only from such processes, then what returns returns the same
with checks and with broadcasting. -/
theorem ev_evB (hm : ∀ m p a, lm m p = some a → a.Uses Q) (hk : ∀ m p q k, lk m p q = some k → k.Uses Q) (hQ : ∀ p, Q p → ok p) :
    ∀ n, Ev.LeOn Q (ev lm lk n) (evB bc ok lm lk n)
  | 0 => ⟨fun _ _ _ _ h => by simp [ev, Ev.bot] at h, fun _ _ _ _ _ h => by simp [ev, Ev.bot] at h, fun _ _ _ _ _ h => by simp [ev, Ev.bot] at h⟩
  | n + 1 => by
    have ih := (ev_evB hm hk hQ n).only
    refine ⟨fun a ha x => ?_, fun k hu x y => ?_, fun k hu x y => ?_⟩
    · change OLe (stepM lm (ev lm lk n) a x) _
      rw [← stepM_only hm ha]
      exact stepM_leB ih ha hQ x
    · cases x <;> cases y <;> first
        | (change OLe (tupK (ev lm lk n) k _ _) _; rw [← tupK_only hu]; exact tupK_mono ih _ _ _)
        | (change OLe (stepKAtom lm lk (ev lm lk n) k _ _) _; rw [← stepKAtom_only hm hk hu]; exact stepKAtom_leB ih hu hQ _ _)
    · cases x <;> cases y <;> first
        | (change OLe (tupD (ev lm lk n) k _ _) _; rw [← tupD_only hu]; exact tupD_mono ih _ _ _)
        | (change OLe (stepDAtom lm lk (ev lm lk n) k _ _) _; rw [← stepDAtom_only hm hk hu]; exact stepDAtom_leB ih hu hQ _ _)

end

/-! ### The expressions of a program -/

/-- The processes of multi-output kernels that a rule makes have `Q`. -/
def LRule.Uses (Q : PId → Prop) : LRule → Prop
  | .zero | .look _ | .lookR _ => True
  | .const k => k.Uses Q
  | .fn f => ∀ j, (f j).Uses Q
  | .map2 f a b => a.Uses Q ∧ b.Uses Q ∧ ∀ j ka kb, ka.Uses Q → kb.Uses Q → (f j ka kb).Uses Q
  | .add a b => a.Uses Q ∧ b.Uses Q
  | .scale _ a | .tmul _ _ a | .pre _ _ a | .diff _ _ a => a.Uses Q
  | .cross _ ps => ∀ p ∈ ps, Q p

/-- The processes of multi-output kernels and means in a definition have `Q`. -/
def ProcDef.Uses (Q : PId → Prop) : ProcDef → Prop
  | .indep a k => a.Uses Q ∧ k.Uses Q
  | .cross ps => ∀ p ∈ ps, Q p
  | .custom a k l => a.Uses Q ∧ k.Uses Q ∧ l.Uses Q
  | _ => True

section
variable {Q : PId → Prop} {m : MId}

theorem KExpr.Uses.kadd {a b : KExpr} (ha : a.Uses Q) (hb : b.Uses Q) : (kadd a b).Uses Q := by
  unfold Stheno.kadd; split
  · exact hb
  · exact ha
  · exact ⟨ha, hb⟩

theorem KExpr.Uses.kmul {a b : KExpr} (ha : a.Uses Q) (hb : b.Uses Q) : (kmul a b).Uses Q := by
  unfold Stheno.kmul; split
  · trivial
  · trivial
  · exact ⟨ha, hb⟩

theorem KExpr.Uses.kscale {a : KExpr} (c : ℝ) (ha : a.Uses Q) : (kscale c a).Uses Q := by
  unfold Stheno.kscale; split
  · trivial
  · exact ha

theorem KExpr.Uses.krev {a : KExpr} (ha : a.Uses Q) : (krev a).Uses Q := by
  unfold Stheno.krev; split
  · trivial
  · exact ha

theorem KExpr.Uses.kpre {a : KExpr} (t u : InTr) (ha : a.Uses Q) : (kpre t u a).Uses Q := by
  unfold Stheno.kpre; split
  · trivial
  · exact ha

theorem KExpr.Uses.kdiff {a : KExpr} (d e : Option ℕ) (ha : a.Uses Q) : (kdiff d e a).Uses Q := by
  unfold Stheno.kdiff; split
  · trivial
  · exact ha

variable {lk : PId → PId → Option KExpr}

theorem runL_uses (h : ∀ i j k, lk i j = some k → k.Uses Q) {j : PId} : ∀ {l : LRule} {k : KExpr}, l.Uses Q → runL lk j l = some k → k.Uses Q
  | .zero, k, _, hk => by cases hk; trivial
  | .const k, k', hl, hk => by cases hk; exact hl
  | .fn f, k', hl, hk => by cases hk; exact hl j
  | .look p, k, hl, hk => h _ _ _ hk
  | .lookR p, k, hl, hk => h _ _ _ hk
  | .map2 f a b, k, hl, hk => by
    obtain ⟨a', ha, hk⟩ := bind_some hk
    obtain ⟨b', hb, hk⟩ := bind_some hk
    cases hk
    exact hl.2.2 _ _ _ (runL_uses h hl.1 ha) (runL_uses h hl.2.1 hb)
  | .add a b, k, hl, hk => by
    obtain ⟨a', ha, hk⟩ := bind_some hk
    obtain ⟨b', hb, hk⟩ := bind_some hk
    cases hk
    exact (runL_uses h hl.1 ha).kadd (runL_uses h hl.2 hb)
  | .scale c a, k, hl, hk => by
    obtain ⟨a', ha, hk⟩ := bind_some hk
    cases hk
    exact (runL_uses h (l := a) hl ha).kscale c
  | .tmul f g a, k, hl, hk => by
    obtain ⟨a', ha, hk⟩ := bind_some hk
    cases hk
    exact KExpr.Uses.kmul trivial (runL_uses h (l := a) hl ha)
  | .pre t u a, k, hl, hk => by
    obtain ⟨a', ha, hk⟩ := bind_some hk
    cases hk
    exact (runL_uses h (l := a) hl ha).kpre t u
  | .diff d e a, k, hl, hk => by
    obtain ⟨a', ha, hk⟩ := bind_some hk
    cases hk
    exact (runL_uses h (l := a) hl ha).kdiff d e
  | .cross m ps, k, hl, hk => by cases hk; exact hl

theorem defLeft_uses (h : ∀ i j k, lk i j = some k → k.Uses Q) {d : ProcDef} (hd : d.Uses Q) {j : PId} {k : KExpr} (hk : defLeft m lk j d = some k) : k.Uses Q := by
  cases d with
  | indep a k => cases hk; trivial
  | addFn p f => exact h _ _ _ hk
  | sum p q =>
    obtain ⟨a, ha, hk⟩ := bind_some hk
    obtain ⟨b, hb, hk⟩ := bind_some hk
    cases hk
    exact (h _ _ _ ha).kadd (h _ _ _ hb)
  | scale p c => obtain ⟨a, ha, hk⟩ := bind_some hk; cases hk; exact (h _ _ _ ha).kscale c
  | fmul p f => obtain ⟨a, ha, hk⟩ := bind_some hk; cases hk; exact KExpr.Uses.kmul trivial (h _ _ _ ha)
  | pre p t => obtain ⟨a, ha, hk⟩ := bind_some hk; cases hk; exact (h _ _ _ ha).kpre _ _
  | diff p e => obtain ⟨a, ha, hk⟩ := bind_some hk; cases hk; exact (h _ _ _ ha).kdiff _ _
  | cross ps => cases hk; exact hd
  | copy p => exact h _ _ _ hk
  | rem p q => cases hk; trivial
  | custom a k l => exact runL_uses h hd.2.2 hk

theorem defRight_uses (h : ∀ i j k, lk i j = some k → k.Uses Q) {d : ProcDef} (hd : d.Uses Q) {j : PId} {k : KExpr} (hk : defRight m lk j d = some k) : k.Uses Q := by
  cases d with
  | indep a k => cases hk; trivial
  | rem p q => cases hk; trivial
  | copy p => exact h _ _ _ hk
  | _ => obtain ⟨a, ha, hk⟩ := bind_some hk; cases hk; exact (defLeft_uses h hd ha).krev

theorem defKernel_uses (h : ∀ i j k, lk i j = some k → k.Uses Q) {d : ProcDef} (hd : d.Uses Q) {k : KExpr} (hk : defKernel m lk d = some k) : k.Uses Q := by
  cases d with
  | indep a k => cases hk; exact hd.2
  | addFn p f => exact h _ _ _ hk
  | sum p q =>
    obtain ⟨a, ha, hk⟩ := bind_some hk
    obtain ⟨b, hb, hk⟩ := bind_some hk
    obtain ⟨c, hc, hk⟩ := bind_some hk
    obtain ⟨e, he, hk⟩ := bind_some hk
    cases hk
    exact (((h _ _ _ ha).kadd (h _ _ _ hb)).kadd (h _ _ _ hc)).kadd (h _ _ _ he)
  | scale p c => obtain ⟨a, ha, hk⟩ := bind_some hk; cases hk; exact (h _ _ _ ha).kscale _
  | fmul p f => obtain ⟨a, ha, hk⟩ := bind_some hk; cases hk; exact KExpr.Uses.kmul trivial (h _ _ _ ha)
  | pre p t => obtain ⟨a, ha, hk⟩ := bind_some hk; cases hk; exact (h _ _ _ ha).kpre _ _
  | diff p e => obtain ⟨a, ha, hk⟩ := bind_some hk; cases hk; exact (h _ _ _ ha).kdiff _ _
  | cross ps => cases hk; exact hd
  | copy p => exact h _ _ _ hk
  | rem p q =>
    obtain ⟨a, ha, hk⟩ := bind_some hk
    obtain ⟨b, hb, hk⟩ := bind_some hk
    obtain ⟨c, hc, hk⟩ := bind_some hk
    obtain ⟨e, he, hk⟩ := bind_some hk
    cases hk
    exact ((h _ _ _ ha).kmul (h _ _ _ hb)).kadd ((h _ _ _ hc).kmul (h _ _ _ he))
  | custom a k l => cases hk; exact hd.2.1

theorem obsKernel_uses (h : ∀ i j k, lk i j = some k → k.Uses Q) {o : Obs} {i j : PId} {k : KExpr} (hk : obsKernel lk none o i j = some k) : k.Uses Q := by
  cases o with
  | exact p x N y =>
    change (if numElements x = 0 then _ else _) = _ at hk
    split at hk
    · exact h _ _ _ hk
    · obtain ⟨a, ha, hk⟩ := bind_some hk
      obtain ⟨b, hb, hk⟩ := bind_some hk
      obtain ⟨c, hc, hk⟩ := bind_some hk
      obtain ⟨e, he, hk⟩ := bind_some hk
      cases hk
      exact ⟨h _ _ _ ha, h _ _ _ hb, h _ _ _ hc, h _ _ _ he⟩
  | pseudo pu p o =>
    obtain ⟨a, ha, hk⟩ := bind_some hk
    obtain ⟨b, hb, hk⟩ := bind_some hk
    obtain ⟨c, hc, hk⟩ := bind_some hk
    obtain ⟨e, he, hk⟩ := bind_some hk
    obtain ⟨f, hf, hk⟩ := bind_some hk
    split at hk
    · obtain ⟨g, hg, hk⟩ := bind_some hk
      cases hk
      exact ⟨h _ _ _ ha, h _ _ _ hb, h _ _ _ hc, h _ _ _ hf, h _ _ _ he, h _ _ _ hg⟩
    · cases hk

theorem lookKDefs_uses {base : PId → PId → Option KExpr} {basePs : List PId} (h : ∀ i j k, base i j = some k → k.Uses Q) :
    ∀ {es : List (PId × ProcDef)}, (∀ e ∈ es, e.2.Uses Q) → ∀ i j k, lookKDefs m base basePs es i j = some k → k.Uses Q
  | [], _, i, j, k, hk => by
    unfold lookKDefs at hk
    split at hk
    · exact h _ _ _ hk
    · cases hk
  | (p, d) :: es, he, i, j, k, hk => by
    have ih := lookKDefs_uses (basePs := basePs) h (es := es) fun e hm => he e (List.mem_cons_of_mem _ hm)
    have hd := he (p, d) (List.mem_cons_self ..)
    unfold lookKDefs at hk
    split at hk
    · split at hk
      · exact defKernel_uses ih hd hk
      · split at hk
        · exact defLeft_uses ih hd hk
        · cases hk
    · split at hk
      · split at hk
        · exact defRight_uses ih hd hk
        · cases hk
      · exact ih i j k hk

theorem specKAux_uses {ms : List AMeas} (h : ∀ (m : MId) (a : AMeas), ms[m]? = some a → ∀ e ∈ a.defs, e.2.Uses Q) :
    ∀ (n : ℕ) (m : MId) (i j : PId) (k : KExpr), specKAux ms n m i j = some k → k.Uses Q
  | 0, m, i, j, k, hk => by cases hk
  | n + 1, m, i, j, k, hk => by
    unfold specKAux at hk
    split at hk
    · cases hk
    · next a ha =>
      refine lookKDefs_uses (fun i j k hk => ?_) (h m a ha) i j k hk
      cases hu : a.base with
      | none => rw [hu] at hk; cases hk
      | some u => rw [hu] at hk; exact obsKernel_uses (specKAux_uses h n u.prior) hk

variable {lm : PId → Option MExpr}

theorem defMean_uses (h : ∀ i a, lm i = some a → a.Uses Q) {d : ProcDef} (hd : d.Uses Q) {a : MExpr} (ha : defMean m lm d = some a) : a.Uses Q := by
  cases d with
  | indep a k => cases ha; exact hd.1
  | addFn p f => obtain ⟨b, hb, ha⟩ := bind_some ha; cases ha; exact ⟨h _ _ hb, trivial⟩
  | sum p q =>
    obtain ⟨b, hb, ha⟩ := bind_some ha
    obtain ⟨c, hc, ha⟩ := bind_some ha
    cases ha
    exact ⟨h _ _ hb, h _ _ hc⟩
  | scale p c => obtain ⟨b, hb, ha⟩ := bind_some ha; cases ha; exact (h _ b hb : b.Uses Q)
  | fmul p f => obtain ⟨b, hb, ha⟩ := bind_some ha; cases ha; exact ⟨trivial, h _ _ hb⟩
  | pre p t => obtain ⟨b, hb, ha⟩ := bind_some ha; cases ha; exact (h _ b hb : b.Uses Q)
  | diff p e => obtain ⟨b, hb, ha⟩ := bind_some ha; cases ha; exact (h _ b hb : b.Uses Q)
  | cross ps => cases ha; exact hd
  | copy p => exact h _ _ ha
  | rem p q =>
    obtain ⟨b, hb, ha⟩ := bind_some ha
    obtain ⟨c, hc, ha⟩ := bind_some ha
    cases ha
    exact ⟨(h _ b hb : b.Uses Q), h _ _ hc⟩
  | custom a k l => cases ha; exact hd.1

theorem obsMean_uses (h : ∀ i j k, lk i j = some k → k.Uses Q) (h' : ∀ i a, lm i = some a → a.Uses Q) {o : Obs} {i : PId} {a : MExpr}
    (ha : obsMean lm lk none o i = some a) : a.Uses Q := by
  cases o with
  | exact p x N y =>
    change (if numElements x = 0 then _ else _) = _ at ha
    split at ha
    · exact h' _ _ ha
    · obtain ⟨b, hb, ha⟩ := bind_some ha
      obtain ⟨c, hc, ha⟩ := bind_some ha
      obtain ⟨d, hd, ha⟩ := bind_some ha
      obtain ⟨e, he, ha⟩ := bind_some ha
      cases ha
      exact ⟨h' _ _ hb, h' _ _ hc, h _ _ _ hd, h _ _ _ he⟩
  | pseudo pu p o =>
    obtain ⟨b, hb, ha⟩ := bind_some ha
    obtain ⟨c, hc, ha⟩ := bind_some ha
    obtain ⟨d, hd, ha⟩ := bind_some ha
    obtain ⟨e, he, ha⟩ := bind_some ha
    obtain ⟨f, hf, ha⟩ := bind_some ha
    split at ha
    · obtain ⟨g, hg, ha⟩ := bind_some ha
      obtain ⟨g', hg', ha⟩ := bind_some ha
      cases ha
      exact ⟨h' _ _ hb, h' _ _ hc, h' _ _ hg', h _ _ _ hd, h _ _ _ hf, h _ _ _ he, h _ _ _ hg⟩
    · cases ha

theorem lookMDefs_uses {base : PId → Option MExpr} {basePs : List PId} (h : ∀ i a, base i = some a → a.Uses Q) :
    ∀ {es : List (PId × ProcDef)}, (∀ e ∈ es, e.2.Uses Q) → ∀ i a, lookMDefs m base basePs es i = some a → a.Uses Q
  | [], _, i, a, ha => by
    unfold lookMDefs at ha
    split at ha
    · exact h _ _ ha
    · cases ha
  | (p, d) :: es, he, i, a, ha => by
    have ih := lookMDefs_uses (basePs := basePs) h (es := es) fun e hm => he e (List.mem_cons_of_mem _ hm)
    unfold lookMDefs at ha
    split at ha
    · exact defMean_uses ih (he (p, d) (List.mem_cons_self ..)) ha
    · exact ih i a ha

theorem specMAux_uses {ms : List AMeas} (h : ∀ (m : MId) (a : AMeas), ms[m]? = some a → ∀ e ∈ a.defs, e.2.Uses Q) :
    ∀ (n : ℕ) (m : MId) (i : PId) (a : MExpr), specMAux ms n m i = some a → a.Uses Q
  | 0, m, i, a, ha => by cases ha
  | n + 1, m, i, a, ha => by
    unfold specMAux at ha
    split at ha
    · cases ha
    · next b hb =>
      refine lookMDefs_uses (fun i a ha => ?_) (h m b hb) i a ha
      cases hu : b.base with
      | none => rw [hu] at ha; cases ha
      | some u => rw [hu] at ha; exact obsMean_uses (specKAux_uses h n u.prior) (specMAux_uses h n u.prior) ha

/-- The processes of all multi-output kernels and means in the tables. -/
theorem lookups_use {ops : List Op} (h : ∀ before o after, ops = before ++ o :: after → ∀ m, ∀ e ∈ o.written (runOps before {}).gps.length m, e.2.Uses Q) :
    (∀ (m : MId) (p : PId) a, meanAt (runOps ops {}) m p = some a → a.Uses Q) ∧ ∀ (m : MId) (p q : PId) k, kernelAt (runOps ops {}) m p q = some k → k.Uses Q := by
  rw [(lookups_reach ops).1, (lookups_reach ops).2]
  exact ⟨fun m p a ha => specMAux_uses (defs_from _ ops h) _ _ _ _ ha, fun m p q k hk => specKAux_uses (defs_from _ ops h) _ _ _ _ _ hk⟩

end

end Stheno
