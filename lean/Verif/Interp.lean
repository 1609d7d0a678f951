import Verif.NumericsSpec
import Verif.SoundTup
import Verif.GraphOps

/-!
# Interpretations: the random functions a model stands for

An interpretation gives every measure an expectation and a covariance, and every process in every measure a
random function. It satisfies the laws if the random functions are what the user wrote down: the sum of the
arguments, the argument shifted, and so on; and if the second-order structure of a posterior measure is the
Gaussian update of the one of its prior. No law mentions how the code computes a kernel, except that the mean
and the kernel given for a new GP are right for it.
-/

namespace Stheno

open Matrix

set_option linter.unusedSectionVars false

variable {V : Type} [AddCommGroup V] [Module ℝ V]

/-- Two random functions are uncorrelated. -/
def SO.Orth (S : SO V) (G H : RF V) : Prop :=
  ∀ x y vs ws, G x = some vs → H y = some ws → ∀ v ∈ vs, ∀ w ∈ ws, S.C v w = 0

/-- A reading of all measures and processes. -/
structure Interp (V : Type) [AddCommGroup V] [Module ℝ V] where
  /-- expectation and covariance under a measure -/
  S : MId → SO V
  /-- the random function a process is in a measure -/
  F : MId → PId → RF V
  /-- the constant one -/
  one : V
  /-- the derivative at zero of a curve of random variables, for the curves that have one -/
  D : (ℝ → V) → Option V

open Classical in
/-- The derivative of a random function with respect to feature `d` at a row, given the derivatives of curves. -/
noncomputable def RF.der (D : (ℝ → V) → Option V) (G : RF V) (d : ℕ) (x : Pt) : Option V :=
  if G.Along d x then D fun t => pointOf G (bump d t x) else none

/-- The derivative of a random function with respect to feature `d` at a row. -/
noncomputable def Interp.der (I : Interp V) : RF V → ℕ → Pt → Option V := RF.der I.D

theorem RF.der_some {D : (ℝ → V) → Option V} {G : RF V} {d : ℕ} {x : Pt} {w : V} (h : G.der D d x = some w) :
    G.Along d x ∧ D (fun t => pointOf G (bump d t x)) = some w := by
  unfold RF.der at h
  split at h
  · exact ⟨‹_›, h⟩
  · cases h

/-- The values of a function at `x`, where `n` of them are needed: a number has the same value everywhere, a
function of the user is applied to each row, and `measure.means[p]` stands for the expectations of `p`. -/
def Interp.fnAt (I : Interp V) : Fn → Input → ℕ → Option (List ℝ)
  | .user f, .num xs, n => if xs.length = n then some (xs.map f) else none
  | .user _, _, _ => none
  | .const c, _, n => some (List.replicate n c)
  | .meanOf m p, x, n => do
    let t ← expect (I.S m) (I.F m p) x
    if t.length = n then some t else none

/-- Pointwise sum of lists of the same length. -/
def zipAdd (vs ws : List V) : Option (List V) :=
  if vs.length = ws.length then some (List.zipWith (· + ·) vs ws) else none

/-- `Σ_ab C(z_a, u) W_ab C(z_b, v)` -/
noncomputable def quadSum (S : SO V) (zs : List V) (W : Matrix (Fin zs.length) (Fin zs.length) ℝ) (u v : V) : ℝ :=
  ∑ a, ∑ b, S.C (zs.get a) u * W a b * S.C (zs.get b) v

/-- The covariance matrix of random variables. -/
def gram (S : SO V) (zs : List V) : Matrix (Fin zs.length) (Fin zs.length) ℝ :=
  fun a b => S.C (zs.get a) (zs.get b)

/-- The matrix of covariances between two lists of random variables. -/
def crossGram (S : SO V) (zs xs : List V) : Matrix (Fin zs.length) (Fin xs.length) ℝ :=
  fun a b => S.C (zs.get a) (xs.get b)

/-- The covariance matrix of noisy observations of `zs`. -/
def noisyGram (S : SO V) (zs : List V) (noise : Mat) : Matrix (Fin zs.length) (Fin zs.length) ℝ :=
  gram S zs + noise.sq zs.length

/-- `S'` is what `S` becomes by observing random variables `zs` with Gaussian noise to be `y`. There are
conditions only if the covariance matrix of the observation is invertible and the data have the right length. -/
structure IsUpdate (S S' : SO V) (zs : List V) (noise : Mat) (y : List ℝ) : Prop where
  r : noise.r = zs.length
  c : noise.c = zs.length
  C : (noisyGram S zs noise).PosDef → ∀ u v, S'.C u v = S.C u v - quadSum S zs (noisyGram S zs noise)⁻¹ u v
  E : (noisyGram S zs noise).PosDef → y.length = zs.length → ∀ u, S'.E u = S.E u +
    ∑ a, S.C (zs.get a) u * ((noisyGram S zs noise)⁻¹ *ᵥ fun b => y.getD b 0 - S.E (zs.get b)) a

/-- `S'` is what `S` becomes by observing random variables `xs` with independent Gaussian noise to be `y` in the
approximation with inducing variables `zs`: the formulas of VFE, FITC and DTC. -/
structure IsSparseUpdate (S S' : SO V) (zs xs : List V) (o : PseudoData) : Prop where
  zr : o.noiseZ.r = zs.length
  zc : o.noiseZ.c = zs.length
  xr : o.noiseX.mat.r = xs.length
  xc : o.noiseX.mat.c = xs.length
  C : (noisyGram S zs o.noiseZ).PosDef → ∀ u v, S'.C u v = S.C u v -
    quadSum S zs (noisyGram S zs o.noiseZ)⁻¹ u v +
    quadSum S zs (sparseA o.method (noisyGram S zs o.noiseZ) (crossGram S zs xs)
      (fun j => S.C (xs.get j) (xs.get j)) (fun j => o.noiseX.mat.e j j))⁻¹ u v
  E : (noisyGram S zs o.noiseZ).PosDef → o.y.length = xs.length → ∀ u, S'.E u = S.E u +
    ∑ a, S.C (zs.get a) u * sparseWeights o.method (noisyGram S zs o.noiseZ) (crossGram S zs xs)
      (fun j => S.C (xs.get j) (xs.get j)) (fun j => o.noiseX.mat.e j j)
      (fun b => o.y.getD b 0 - S.E (xs.get b)) a

/-- The law of conditioning measure `m` on an observation, which gives the expectation and covariance `S'`. -/
def Interp.PostLaw (I : Interp V) (m : MId) (S' : SO V) : Obs → Prop
  | .exact p x noise y => (numElements x = 0 ∧ S' = I.S m) ∨
    (numElements x ≠ 0 ∧ ∃ zs, I.F m p x = some zs ∧ IsUpdate (I.S m) S' zs noise y)
  | .pseudo pu p o => ∃ zs xs, I.F m pu o.z = some zs ∧ I.F m p o.x = some xs ∧
    IsSparseUpdate (I.S m) S' zs xs o

section Laws
variable (lm : MId → PId → Option MExpr) (lk : MId → PId → PId → Option KExpr)

open Classical in
/-- The law of a definition of `res` in measure `m`, where the measure already has the processes `known`. -/
def Interp.DefLaw (I : Interp V) (m : MId) (known : List PId) (res : PId) : ProcDef → Prop
  | .indep mean k =>
    (∀ n, SM lm lk n mean (expect (I.S m) (I.F m res))) ∧
    (∀ n, AK lm lk n k (cov (I.S m) (I.F m res) (I.F m res))) ∧
    ∀ q ∈ known, (I.S m).Orth (I.F m res) (I.F m q)
  | .addFn p f => ∀ x, x.IsAtom → I.F m res x = do
      let vs ← I.F m p x
      let us ← I.fnAt f x vs.length
      pure (List.zipWith (fun v u => v + u • I.one) vs us)
  | .sum p q => ∀ x, x.IsAtom → I.F m res x = do
      let vs ← I.F m p x
      let ws ← I.F m q x
      zipAdd vs ws
  | .scale p c => ∀ x, x.IsAtom → I.F m res x = (I.F m p x).map (·.map (c • ·))
  | .fmul p f => ∀ x, x.IsAtom → I.F m res x = do
      let vs ← I.F m p x
      let us ← I.fnAt f x vs.length
      pure (List.zipWith (fun v u => u • v) vs us)
  | .pre p t => ∀ x, x.IsAtom → I.F m res x = do I.F m p (← t.apply x)
  | .diff p d =>
      (∀ xs, I.F m res (.num xs) = xs.mapM (I.der (I.F m p) d)) ∧
      (∀ q x, I.F m res (.fdd q x) = none) ∧
      ∀ x w, I.der (I.F m p) d x = some w → (I.S m).Slope (fun t => pointOf (I.F m p) (bump d t x)) w
  | .cross ps =>
      (∀ xs, I.F m res (.num xs) = (ps.mapM fun p => I.F m p (.num xs)).map List.flatten) ∧
      ∀ q x, I.F m res (.fdd q x) = if q ∈ ps then I.F m q x else none
  | .copy p => I.F m res = I.F m p
  | .rem p q =>
      (∀ x rs, x.IsAtom → I.F m res x = some rs → ∃ vs ws, I.F m p x = some vs ∧ I.F m q x = some ws ∧
        vs.length = rs.length ∧ ws.length = rs.length ∧
        (∀ i < rs.length, (I.S m).E (rs.getD i 0) = -((I.S m).E (vs.getD i 0) * (I.S m).E (ws.getD i 0)))) ∧
      (∀ x y rs rs' vs vs' ws ws', x.IsAtom → y.IsAtom → I.F m res x = some rs → I.F m res y = some rs' →
        I.F m p x = some vs → I.F m p y = some vs' → I.F m q x = some ws → I.F m q y = some ws' →
        ∀ i < rs.length, ∀ j < rs'.length, (I.S m).C (rs.getD i 0) (rs'.getD j 0) =
          (I.S m).C (vs.getD i 0) (vs'.getD j 0) * (I.S m).C (ws.getD i 0) (ws'.getD j 0) +
          (I.S m).C (vs.getD i 0) (ws'.getD j 0) * (I.S m).C (ws.getD i 0) (vs'.getD j 0)) ∧
      ∀ r ∈ known, (I.S m).Orth (I.F m res) (I.F m r)
  | .custom mean k l =>
    (∀ n, SM lm lk n mean (expect (I.S m) (I.F m res))) ∧
    (∀ n, AK lm lk n k (cov (I.S m) (I.F m res) (I.F m res))) ∧
    ∀ q ∈ known, ∀ k', runL (lk m) q l = some k' → ∀ n, AK lm lk n k' (cov (I.S m) (I.F m res) (I.F m q))

end Laws

/-- The laws for a state of the specification machine. -/
structure Interp.Laws (I : Interp V) (L : AWorld) : Prop where
  ok : ∀ m p, (I.F m p).OK
  one_E : ∀ m, (I.S m).E I.one = 1
  one_C : ∀ m v, (I.S m).C I.one v = 0
  defs : ∀ (m : MId) a es res d es', L.ms[m]? = some a → a.defs = es ++ (res, d) :: es' →
    I.DefLaw L.mean L.kernel m (knownOf a.basePs es') res d
  post : ∀ (m : MId) a u, L.ms[m]? = some a → a.base = some u →
    (∀ p ∈ a.basePs, I.F m p = I.F u.prior p) ∧ I.PostLaw u.prior (I.S m) u.obs

end Stheno
