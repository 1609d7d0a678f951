import Mathlib.Algebra.Module.LinearMap.Basic
import Mathlib.LinearAlgebra.BilinearMap
import Mathlib.Analysis.Calculus.Deriv.Basic
import Verif.Eval

/-!
# What means and kernels are supposed to be

A measure is read as a second-order structure: an expectation and a covariance on a real vector space of random
variables. A process is read as a random function, which gives a list of random variables at every input. The
specification of `measure.means[p](x)` is the list of expectations and that of `measure.kernels[p, q](x, y)` is
the matrix of covariances. Nothing here refers to how the code computes them.
-/

namespace Stheno

/-- Expectation and covariance on a space of random variables. -/
structure SO (V : Type) [AddCommGroup V] [Module ℝ V] where
  E : V →ₗ[ℝ] ℝ
  C : V →ₗ[ℝ] V →ₗ[ℝ] ℝ
  symm : ∀ u v, C u v = C v u

/-- A random function: the random variables at an input; `none` where it is not defined. -/
abbrev RF (V : Type) := Input → Option (List V)

/-- A random function has one value at every row on the line through `x` in the direction of feature `d`. -/
def RF.Along {V : Type} (G : RF V) (d : ℕ) (x : Pt) : Prop :=
  d < x.length ∧ ∀ t, ∃ v, G (.num [bump d t x]) = some [v]

/-- The value at one row, where there is one. -/
def pointOf {V : Type} [Zero V] (G : RF V) (x : Pt) : V :=
  match G (.num [x]) with
  | some [v] => v
  | _ => 0

/-- `w` is the derivative at zero of a curve of random variables: expectations and covariances have these derivatives. -/
def SO.Slope {V : Type} [AddCommGroup V] [Module ℝ V] (S : SO V) (f : ℝ → V) (w : V) : Prop :=
  HasDerivAt (fun t => S.E (f t)) (S.E w) 0 ∧ ∀ v, HasDerivAt (fun t => S.C (f t) v) (S.C w v) 0

/-- The value at a tuple is the concatenation of the values; every element of the input gives at least one
random variable; and a single-output random function is evaluated point by point. -/
structure RF.OK {V : Type} (G : RF V) : Prop where
  tup : ∀ xs, G (.tup xs) = (xs.mapM G).map List.flatten
  size : ∀ x vs, G x = some vs → numElements x ≤ vs.length
  pointwise : ∀ xs vs, G (.num xs) = some vs → vs.length = xs.length →
    ∀ (i : ℕ) x v, xs[i]? = some x → vs[i]? = some v → G (.num [x]) = some [v]

namespace Mat

/-- `A` is the matrix `T`, if it has the right shape; and it is not larger than `T`. -/
structure Fits (A T : Mat) : Prop where
  r : A.r ≤ T.r
  c : A.c ≤ T.c
  e : A.r = T.r → A.c = T.c → ∀ i < T.r, ∀ j < T.c, A.e i j = T.e i j

/-- The same matrix. -/
structure Eqv (A T : Mat) : Prop where
  r : A.r = T.r
  c : A.c = T.c
  e : ∀ i < T.r, ∀ j < T.c, A.e i j = T.e i j

/-- `u` is the diagonal of `T`, if it has the right length; and it is not longer. -/
structure FitsD (u : List ℝ) (T : Mat) : Prop where
  r : u.length ≤ T.r
  c : u.length ≤ T.c
  e : u.length = T.r → u.length = T.c → ∀ i < T.r, u[i]? = some (T.e i i)

theorem Eqv.refl (A : Mat) : Eqv A A := ⟨rfl, rfl, fun _ _ _ _ => rfl⟩

theorem Eqv.symm {A B : Mat} (h : Eqv A B) : Eqv B A :=
  ⟨h.r.symm, h.c.symm, fun i hi j hj => (h.e i (h.r ▸ hi) j (h.c ▸ hj)).symm⟩

theorem Eqv.trans {A B D : Mat} (h : Eqv A B) (h' : Eqv B D) : Eqv A D :=
  ⟨h.r.trans h'.r, h.c.trans h'.c, fun i hi j hj =>
    (h.e i (h'.r ▸ hi) j (h'.c ▸ hj)).trans (h'.e i hi j hj)⟩

theorem Fits.congr {A T T' : Mat} (h : Fits A T) (e : Eqv T T') : Fits A T' :=
  ⟨e.r ▸ h.r, e.c ▸ h.c, fun hr hc i hi j hj =>
    (h.e (hr.trans e.r.symm) (hc.trans e.c.symm) i (e.r ▸ hi) j (e.c ▸ hj)).trans (e.e i hi j hj)⟩

theorem FitsD.congr {u : List ℝ} {T T' : Mat} (h : FitsD u T) (e : Eqv T T') : FitsD u T' :=
  ⟨e.r ▸ h.r, e.c ▸ h.c, fun hr hc i hi => by
    rw [h.e (hr.trans e.r.symm) (hc.trans e.c.symm) i (e.r ▸ hi),
      e.e i hi i (by rw [← hc, hr]; exact hi)]⟩

theorem add_some {A B M : Mat} (h : A.add B = some M) :
    A.r = B.r ∧ A.c = B.c ∧ M = ⟨A.r, A.c, fun i j => A.e i j + B.e i j⟩ := by
  unfold add at h; split at h
  · next hc => simp at h; exact ⟨hc.1, hc.2, h.symm⟩
  · simp at h

theorem sub_some {A B M : Mat} (h : A.sub B = some M) :
    A.r = B.r ∧ A.c = B.c ∧ M = ⟨A.r, A.c, fun i j => A.e i j - B.e i j⟩ := by
  unfold sub at h; split at h
  · next hc => simp at h; exact ⟨hc.1, hc.2, h.symm⟩
  · simp at h

theorem mul_some {A B M : Mat} (h : A.mul B = some M) :
    A.r = B.r ∧ A.c = B.c ∧ M = ⟨A.r, A.c, fun i j => A.e i j * B.e i j⟩ := by
  unfold mul at h; split at h
  · next hc => simp at h; exact ⟨hc.1, hc.2, h.symm⟩
  · simp at h

theorem Fits.add {A B M T U W : Mat} (ha : Fits A T) (hb : Fits B U) (h : A.add B = some M)
    (h' : T.add U = some W) : Fits M W := by
  obtain ⟨hr, hc, rfl⟩ := add_some h
  obtain ⟨hr', hc', rfl⟩ := add_some h'
  refine ⟨ha.r, ha.c, fun er ec i hi j hj => ?_⟩
  show A.e i j + B.e i j = T.e i j + U.e i j
  rw [ha.e er ec i hi j hj, hb.e (hr ▸ er.trans hr') (hc ▸ ec.trans hc') i (hr' ▸ hi) j (hc' ▸ hj)]

theorem Fits.sub {A B M T U W : Mat} (ha : Fits A T) (hb : Fits B U) (h : A.sub B = some M)
    (h' : T.sub U = some W) : Fits M W := by
  obtain ⟨hr, hc, rfl⟩ := sub_some h
  obtain ⟨hr', hc', rfl⟩ := sub_some h'
  refine ⟨ha.r, ha.c, fun er ec i hi j hj => ?_⟩
  show A.e i j - B.e i j = T.e i j - U.e i j
  rw [ha.e er ec i hi j hj, hb.e (hr ▸ er.trans hr') (hc ▸ ec.trans hc') i (hr' ▸ hi) j (hc' ▸ hj)]

theorem Fits.mul {A B M T U W : Mat} (ha : Fits A T) (hb : Fits B U) (h : A.mul B = some M)
    (h' : T.mul U = some W) : Fits M W := by
  obtain ⟨hr, hc, rfl⟩ := mul_some h
  obtain ⟨hr', hc', rfl⟩ := mul_some h'
  refine ⟨ha.r, ha.c, fun er ec i hi j hj => ?_⟩
  show A.e i j * B.e i j = T.e i j * U.e i j
  rw [ha.e er ec i hi j hj, hb.e (hr ▸ er.trans hr') (hc ▸ ec.trans hc') i (hr' ▸ hi) j (hc' ▸ hj)]

theorem Fits.smul {A T : Mat} (h : Fits A T) (c : ℝ) : Fits (A.smul c) (T.smul c) :=
  ⟨h.r, h.c, fun er ec i hi j hj => by
    show c * A.e i j = c * T.e i j
    rw [h.e er ec i hi j hj]⟩

theorem Fits.tr {A T : Mat} (h : Fits A T) : Fits A.tr T.tr :=
  ⟨h.c, h.r, fun er ec i hi j hj => h.e ec er j hj i hi⟩

end Mat

theorem zipCol_some {f : ℝ → ℝ → ℝ} {u v w : List ℝ} (h : zipCol f u v = some w) :
    u.length = v.length ∧ w = List.zipWith f u v := by
  unfold zipCol at h; split at h
  · next hc => simp at h; exact ⟨hc, h.symm⟩
  · simp at h

namespace Mat

/-- Entrywise operations on columns and matrices. -/
theorem FitsD.zip {u v w : List ℝ} {T U W : Mat} {f : ℝ → ℝ → ℝ} (hu : FitsD u T) (hv : FitsD v U)
    (h : zipCol f u v = some w) (hr : W.r = T.r) (hc : W.c = T.c) (hr' : T.r = U.r) (hc' : T.c = U.c)
    (he : ∀ i j, W.e i j = f (T.e i j) (U.e i j)) : FitsD w W := by
  obtain ⟨hl, rfl⟩ := zipCol_some h
  have hlen : (List.zipWith f u v).length = u.length := by simp [hl]
  refine ⟨by rw [hlen, hr]; exact hu.r, by rw [hlen, hc]; exact hu.c, fun er ec i hi => ?_⟩
  rw [hlen, hr] at er
  rw [hlen, hc] at ec
  rw [hr] at hi
  have h1 := hu.e er ec i hi
  have h2 := hv.e (by rw [← hl, er, hr']) (by rw [← hl, ec, hc']) i (hr' ▸ hi)
  rw [List.getElem?_zipWith, h1, h2, he]

theorem FitsD.add {u v w : List ℝ} {T U W : Mat} (hu : FitsD u T) (hv : FitsD v U)
    (h : zipCol (· + ·) u v = some w) (h' : T.add U = some W) : FitsD w W := by
  obtain ⟨hr', hc', rfl⟩ := add_some h'
  exact hu.zip hv h rfl rfl hr' hc' fun _ _ => rfl

theorem FitsD.sub {u v w : List ℝ} {T U W : Mat} (hu : FitsD u T) (hv : FitsD v U)
    (h : zipCol (· - ·) u v = some w) (h' : T.sub U = some W) : FitsD w W := by
  obtain ⟨hr', hc', rfl⟩ := sub_some h'
  exact hu.zip hv h rfl rfl hr' hc' fun _ _ => rfl

theorem FitsD.mul {u v w : List ℝ} {T U W : Mat} (hu : FitsD u T) (hv : FitsD v U)
    (h : zipCol (· * ·) u v = some w) (h' : T.mul U = some W) : FitsD w W := by
  obtain ⟨hr', hc', rfl⟩ := mul_some h'
  exact hu.zip hv h rfl rfl hr' hc' fun _ _ => rfl

theorem FitsD.smul {u : List ℝ} {T : Mat} (h : FitsD u T) (c : ℝ) : FitsD (u.map (c * ·)) (T.smul c) := by
  refine ⟨by rw [List.length_map]; exact h.r, by rw [List.length_map]; exact h.c, fun er ec i hi => ?_⟩
  rw [List.length_map] at er ec
  rw [List.getElem?_map, h.e er ec i hi]
  rfl

theorem FitsD.tr {u : List ℝ} {T : Mat} (h : FitsD u T) : FitsD u T.tr :=
  ⟨h.c, h.r, fun er ec i hi => h.e ec er i (by
    have h1 : u.length = T.c := er
    have h2 : u.length = T.r := ec
    have h3 : i < T.c := hi
    omega)⟩

end Mat

section Cov
variable {V : Type} [AddCommGroup V] [Module ℝ V] (S : SO V)

/-- The matrix of covariances. -/
def covMat (vs ws : List V) : Mat :=
  ⟨vs.length, ws.length, fun i j => S.C (vs.getD i 0) (ws.getD j 0)⟩

/-- The covariances between two random functions. -/
def cov (G H : RF V) (x y : Input) : Option Mat := do
  let vs ← G x
  let ws ← H y
  pure (covMat S vs ws)

/-- The expectations of a random function. -/
def expect (G : RF V) (x : Input) : Option (List ℝ) := (G x).map (·.map S.E)

theorem cov_some {G H : RF V} {x y : Input} {T : Mat} (h : cov S G H x y = some T) :
    ∃ vs ws, G x = some vs ∧ H y = some ws ∧ T = covMat S vs ws := by
  unfold cov at h
  cases hx : G x with
  | none => rw [hx] at h; cases h
  | some vs =>
    cases hy : H y with
    | none => rw [hx, hy] at h; cases h
    | some ws => rw [hx, hy] at h; cases h; exact ⟨vs, ws, rfl, rfl, rfl⟩

theorem cov_of {G H : RF V} {x y : Input} {vs ws : List V} (hx : G x = some vs) (hy : H y = some ws) :
    cov S G H x y = some (covMat S vs ws) := by
  unfold cov; rw [hx, hy]; rfl

theorem covMat_tr (vs ws : List V) : (covMat S vs ws).tr = covMat S ws vs := by
  unfold covMat Mat.tr
  congr 1
  funext i j
  exact S.symm _ _

end Cov

end Stheno
