import Verif.Renoise
import Verif.Calls

/-!
# Evaluation with jitter

The package `matrix` adds a small number `B.epsilon` to the diagonal of a dense matrix before it takes the Cholesky factor of the matrix. The
evaluator of `Eval` leaves this out. The evaluator in this file has it, in the posteriors with exact observations
(`stheno/model/observations.py:143-168`, where `K_x` goes into `PosteriorKernel` and `PosteriorMean`, contract of `mlkernels`): every factored
`K_x = kzz(z) + noise` is `kzz(z) + noise + ε I`. Nothing else changes; for inducing points see `JitterSparse`.
-/

namespace Stheno

open Matrix

/-- `N + ε I` -/
def jit (ε : ℝ) (N : Mat) : Mat := ⟨N.r, N.c, fun i j => N.e i j + if i = j then ε else 0⟩

section Step
variable (ε : ℝ) (lm : MId → PId → Option MExpr) (lk : MId → PId → PId → Option KExpr) (r : Ev)

open Classical in
/-- `stepKz`, with jitter. -/
noncomputable def stepKzJ (kzz : KExpr) (z : Input) (noise : Mat) : Option Mat := do
  let A ← r.K kzz z z
  let K ← A.add noise
  if K.r = K.c ∧ ((jit ε K).sq K.r).PosDef then pure (jit ε K) else none

/-- `stepKAtom`, with jitter. -/
noncomputable def stepKAtomJ : KExpr → Input → Input → Option Mat
  | .post kij kzi kzj z kzz noise, x, y => do
    let A ← r.K kij x y
    let K ← stepKzJ ε r kzz z noise
    let B ← r.K kzi z x
    let C ← r.K kzj z y
    A.sub (← Mat.quad (K.sq K.r)⁻¹ B C)
  | k, x, y => stepKAtom lm lk r k x y

/-- `stepK`, with jitter. -/
noncomputable def stepKJ (k : KExpr) : Input → Input → Option Mat
  | .tup xs, .tup ys => tupK r k xs ys
  | .tup xs, y => tupK r k xs [y]
  | x, .tup ys => tupK r k [x] ys
  | x, y => stepKAtomJ ε lm lk r k x y

/-- `stepDAtom`, with jitter. -/
noncomputable def stepDAtomJ : KExpr → Input → Input → Option (List ℝ)
  | .post kij kzi kzj z kzz noise, x, y => do
    let v ← r.D kij x y
    let K ← stepKzJ ε r kzz z noise
    let B ← r.K kzi z x
    let C ← r.K kzj z y
    zipCol (· - ·) v (← Mat.quadDiag (K.sq K.r)⁻¹ B C)
  | k, x, y => stepDAtom lm lk r k x y

/-- `stepD`, with jitter. -/
noncomputable def stepDJ (k : KExpr) : Input → Input → Option (List ℝ)
  | .tup xs, .tup ys => tupD r k xs ys
  | .tup xs, y => tupD r k xs [y]
  | x, .tup ys => tupD r k [x] ys
  | x, y => stepDAtomJ ε lm lk r k x y

/-- `stepM`, with jitter. -/
noncomputable def stepMJ : MExpr → Input → Option (List ℝ)
  | .post mi mz kzi z kzz noise y, x => do
    let v ← r.M mi x
    let K ← stepKzJ ε r kzz z noise
    let mzv ← r.M mz z
    let B ← r.K kzi z x
    if mzv.length = K.r ∧ y.length = K.r then
      zipCol (· + ·) v (← Mat.tmulVec B ((K.sq K.r)⁻¹ *ᵥ fun a : Fin K.r => y.getD a 0 - mzv.getD a 0))
    else none
  | a, x => stepM lm r a x

end Step

/-- `ev`, with jitter. -/
noncomputable def evJ (ε : ℝ) (lm : MId → PId → Option MExpr) (lk : MId → PId → PId → Option KExpr) : ℕ → Ev
  | 0 => .bot
  | n + 1 => ⟨stepMJ ε lm (evJ ε lm lk n), stepKJ ε lm lk (evJ ε lm lk n), stepDJ ε lm lk (evJ ε lm lk n)⟩

/-- `measure.means[p](x)` returns `v` when the jitter is `ε`. -/
def MeanCallJ (ε : ℝ) (w : World) (m : MId) (p : PId) (x : Input) (v : List ℝ) : Prop :=
  ∃ a n, meanAt w m p = some a ∧ (evJ ε (meanAt w) (kernelAt w) n).M a x = some v

/-- `measure.kernels[p, q](x, y)` returns `A` when the jitter is `ε`. -/
def KernelCallJ (ε : ℝ) (w : World) (m : MId) (p q : PId) (x y : Input) (A : Mat) : Prop :=
  ∃ k n, kernelAt w m p q = some k ∧ (evJ ε (meanAt w) (kernelAt w) n).K k x y = some A

/-- `measure.kernels[p, q].elwise(x, y)` returns `u` when the jitter is `ε`. -/
def ElwiseCallJ (ε : ℝ) (w : World) (m : MId) (p q : PId) (x y : Input) (u : List ℝ) : Prop :=
  ∃ k n, kernelAt w m p q = some k ∧ (evJ ε (meanAt w) (kernelAt w) n).D k x y = some u

/-! ## Jitter is noise -/

/-- Evaluators that agree, the second with more noise. -/
structure Agree (ε : ℝ) (r r' : Ev) : Prop where
  M : ∀ a x, r'.M (a.renoise (jit ε)) x = r.M a x
  K : ∀ k x y, r'.K (k.renoise (jit ε)) x y = r.K k x y
  D : ∀ k x y, r'.D (k.renoise (jit ε)) x y = r.D k x y

section
variable {ε : ℝ} {lm : MId → PId → Option MExpr} {lk : MId → PId → PId → Option KExpr} {r r' : Ev}

theorem jit_add {A N : Mat} : A.add (jit ε N) = (A.add N).map (jit ε) := by
  unfold Mat.add jit
  simp only
  split_ifs with h
  · simp [add_assoc]
  · rfl

theorem Agree.stepKz (h : Agree ε r r') (kzz : KExpr) (z : Input) (noise : Mat) :
    Stheno.stepKz r' (kzz.renoise (jit ε)) z (jit ε noise) = stepKzJ ε r kzz z noise := by
  unfold Stheno.stepKz stepKzJ
  rw [h.K]
  cases r.K kzz z z with
  | none => rfl
  | some A =>
    simp only [Option.bind_eq_bind, Option.bind_some, jit_add]
    cases A.add noise <;> rfl

theorem Agree.stepKz' (h : Agree ε r r') (kzz : KExpr) (z : Input) (noise : Mat) :
    Stheno.stepKz r' (kzz.renoise (jit ε)) z noise = Stheno.stepKz r kzz z noise := by
  unfold Stheno.stepKz
  rw [h.K]

theorem Agree.ingredients (h : Agree ε r r') (kzz kzx kxx : KExpr) (o : PseudoData) :
    stepIngredients r' (kzz.renoise (jit ε)) (kzx.renoise (jit ε)) (kxx.renoise (jit ε)) o = stepIngredients r kzz kzx kxx o := by
  have hx : ∀ k, stepKx r' (kxx.renoise (jit ε)) o k = stepKx r kxx o k := by
    intro k
    unfold stepKx
    rw [h.D]
  unfold stepIngredients
  simp only [h.stepKz', h.K, hx]

theorem Agree.fn (h : Agree ε r r') (f : Fn) (x : Input) :
    stepFn (fun m p => (lm m p).map (MExpr.renoise (jit ε))) r' f x = stepFn lm r f x := by
  cases f with
  | user => cases x <;> rfl
  | const => rfl
  | meanOf m p =>
    simp only [stepFn]
    cases lm m p with
    | none => rfl
    | some a => exact h.M a x

theorem Agree.scalK (h : Agree ε r r') (k : KExpr) : Stheno.scalK r' (k.renoise (jit ε)) = Stheno.scalK r k := by
  funext x y
  unfold Stheno.scalK
  rw [h.K]

theorem Agree.scalM (h : Agree ε r r') (a : MExpr) : Stheno.scalM r' (a.renoise (jit ε)) = Stheno.scalM r a := by
  funext x
  unfold Stheno.scalM
  rw [h.M]

theorem Agree.diffEntry (h : Agree ε r r') (k : KExpr) : Stheno.diffEntry r' (k.renoise (jit ε)) = Stheno.diffEntry r k := by
  funext d e x y
  unfold Stheno.diffEntry
  rw [h.scalK]

theorem Agree.diffMEntry (h : Agree ε r r') (a : MExpr) : Stheno.diffMEntry r' (a.renoise (jit ε)) = Stheno.diffMEntry r a := by
  funext d x
  unfold Stheno.diffMEntry
  rw [h.scalM]

theorem Agree.stepKAtom (h : Agree ε r r') (k : KExpr) (x y : Input) :
    Stheno.stepKAtom (fun m p => (lm m p).map (MExpr.renoise (jit ε))) (fun m p q => (lk m p q).map (KExpr.renoise (jit ε))) r' (k.renoise (jit ε)) x y =
      stepKAtomJ ε lm lk r k x y := by
  cases k with
  | prim | zero => cases x <;> cases y <;> rfl
  | mok m ps =>
    cases x <;> cases y <;> try rfl
    · exact h.K (.mok m ps) _ _
    · exact h.K (.mok m ps) _ _
    · exact h.K (.mok m ps) _ _
    · rename_i p x q y
      simp only [KExpr.renoise, Stheno.stepKAtom, stepKAtomJ]
      cases lk m p q with
      | none => rfl
      | some k => exact h.K k x y
  | tprod => simp only [KExpr.renoise, Stheno.stepKAtom, stepKAtomJ, h.fn]
  | diff d e k =>
    cases x <;> cases y <;> try rfl
    simp only [KExpr.renoise, Stheno.stepKAtom, stepKAtomJ]
    unfold diffMat
    rw [h.diffEntry]
  | pseudo => simp only [KExpr.renoise, Stheno.stepKAtom, stepKAtomJ, PseudoData.revalue_id, h.K, h.ingredients]
  | post => simp only [KExpr.renoise, Stheno.stepKAtom, stepKAtomJ, h.K, h.stepKz]
  | _ => simp only [KExpr.renoise, Stheno.stepKAtom, stepKAtomJ, h.K]

theorem Agree.stepDAtom (h : Agree ε r r') (k : KExpr) (x y : Input) :
    Stheno.stepDAtom (fun m p => (lm m p).map (MExpr.renoise (jit ε))) (fun m p q => (lk m p q).map (KExpr.renoise (jit ε))) r' (k.renoise (jit ε)) x y =
      stepDAtomJ ε lm lk r k x y := by
  cases k with
  | prim | zero => cases x <;> cases y <;> rfl
  | mok m ps =>
    cases x <;> cases y <;> try rfl
    · exact h.D (.mok m ps) _ _
    · rename_i p x q y
      simp only [KExpr.renoise, Stheno.stepDAtom, stepDAtomJ]
      cases lk m p q with
      | none => rfl
      | some k => exact h.D k x y
  | tprod => simp only [KExpr.renoise, Stheno.stepDAtom, stepDAtomJ, h.fn]
  | diff d e k =>
    cases x <;> cases y <;> try rfl
    simp only [KExpr.renoise, Stheno.stepDAtom, stepDAtomJ, h.diffEntry]
  | pseudo => simp only [KExpr.renoise, Stheno.stepDAtom, stepDAtomJ, PseudoData.revalue_id, h.K, h.D, h.ingredients]
  | post => simp only [KExpr.renoise, Stheno.stepDAtom, stepDAtomJ, h.K, h.D, h.stepKz]
  | _ => simp only [KExpr.renoise, Stheno.stepDAtom, stepDAtomJ, h.D]

theorem Agree.stepM (h : Agree ε r r') (a : MExpr) (x : Input) :
    Stheno.stepM (fun m p => (lm m p).map (MExpr.renoise (jit ε))) r' (a.renoise (jit ε)) x = stepMJ ε lm r a x := by
  cases a with
  | zero => rfl
  | fn f => exact h.fn f x
  | mom m ps =>
    cases x with
    | num => exact h.M (.mom m ps) _
    | fdd p x =>
      simp only [MExpr.renoise, Stheno.stepM, stepMJ]
      cases lm m p with
      | none => rfl
      | some a => exact h.M a x
    | tup xs =>
      have : r'.M (.mom m ps) = r.M (.mom m ps) := by funext x; exact h.M (.mom m ps) x
      simp only [MExpr.renoise, Stheno.stepM, stepMJ, this]
  | diff d a =>
    cases x <;> try rfl
    simp only [MExpr.renoise, Stheno.stepM, stepMJ, h.diffMEntry]
  | pseudo => simp only [MExpr.renoise, Stheno.stepM, stepMJ, PseudoData.revalue_id, h.K, h.M, h.ingredients]
  | post => simp only [MExpr.renoise, Stheno.stepM, stepMJ, id, h.K, h.M, h.stepKz]
  | _ => simp only [MExpr.renoise, Stheno.stepM, stepMJ, h.M]

/-- **Jitter is noise**: evaluation with jitter is evaluation of the means and kernels with more noise. -/
theorem evJ_agree : ∀ n, Agree ε (evJ ε lm lk n)
    (ev (fun m p => (lm m p).map (MExpr.renoise (jit ε))) (fun m p q => (lk m p q).map (KExpr.renoise (jit ε))) n)
  | 0 => ⟨fun _ _ => rfl, fun _ _ _ => rfl, fun _ _ _ => rfl⟩
  | n + 1 => by
    have ih := evJ_agree n
    have tK : ∀ k xs ys, tupK (ev (fun m p => (lm m p).map (MExpr.renoise (jit ε))) (fun m p q => (lk m p q).map (KExpr.renoise (jit ε))) n)
        (k.renoise (jit ε)) xs ys = tupK (evJ ε lm lk n) k xs ys := by
      intro k xs ys
      unfold tupK
      simp only [ih.K]
    have tD : ∀ k xs ys, tupD (ev (fun m p => (lm m p).map (MExpr.renoise (jit ε))) (fun m p q => (lk m p q).map (KExpr.renoise (jit ε))) n)
        (k.renoise (jit ε)) xs ys = tupD (evJ ε lm lk n) k xs ys := by
      intro k xs ys
      unfold tupD
      simp only [ih.D]
    refine ⟨fun a x => ih.stepM a x, fun k x y => ?_, fun k x y => ?_⟩
    · show stepK _ _ _ _ x y = stepKJ _ _ _ _ _ x y
      cases x <;> cases y <;> first | exact tK _ _ _ | exact ih.stepKAtom _ _ _
    · show stepD _ _ _ _ x y = stepDJ _ _ _ _ _ x y
      cases x <;> cases y <;> first | exact tD _ _ _ | exact ih.stepDAtom _ _ _

end

end Stheno
