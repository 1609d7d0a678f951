import Verif.Plain
import Verif.Hilbert

/-!
# Canonical random variables of a state

Random variables for every state of the specification machine whose definitions are elementary, in the Hilbert space
of `Verif/Hilbert.lean`: one variable for every new GP and every input, one for the remainder of every product, and the
constant one. Every process has the values the user wrote. This file has the values; the laws are proved in
`Verif/Realise.lean`.
-/

namespace Stheno

open Matrix

/-- The values of a function where `n` are needed, from the values `g` of processes with expectations `S`. -/
noncomputable def Fn.vals (S : SO RV) (g : PId → Input → Option (List RV)) : Fn → Input → ℕ → Option (List ℝ)
  | .user f, .num xs, n => if xs.length = n then some (xs.map f) else none
  | .user _, _, _ => none
  | .const c, _, n => some (List.replicate n c)
  | .meanOf _ q, x, n => do
    let t ← (g q x).map (·.map S.E)
    if t.length = n then some t else none

open Classical in
/-- The derivative of a curve at zero. -/
noncomputable def slopeOf {V : Type} [NormedAddCommGroup V] [NormedSpace ℝ V] (f : ℝ → V) : Option V :=
  if DifferentiableAt ℝ f 0 then some (deriv f 0) else none

theorem slopeOf_some {V : Type} [NormedAddCommGroup V] [NormedSpace ℝ V] {f : ℝ → V} {w : V} (h : slopeOf f = some w) : HasDerivAt f w 0 := by
  unfold slopeOf at h
  split at h
  · next hd => cases h; exact hd.hasDerivAt
  · cases h

/-- The expectation of the remainder of a product. -/
noncomputable def remE (S : SO RV) (f h : Pt → RV) (x : Pt) : ℝ := -(S.E (f x) * S.E (h x))

/-- The covariance of the remainder of a product. -/
noncomputable def remC (S : SO RV) (f h : Pt → RV) (x y : Pt) : ℝ :=
  S.C (f x) (f y) * S.C (h x) (h y) + S.C (f x) (h y) * S.C (h x) (f y)

open Classical in
/-- The values of process `r` defined in measure `m`, at an input that is not a tuple, from the values `g` of
earlier processes, where `S` are expectation and covariance in the measure. At the FDD of `q` at `y`, `T q` are the
values of `q` at `y`. -/
noncomputable def defVal (S : SO RV) (m : MId) (r : PId) (T : PId → Option (List RV)) (g : PId → Input → Option (List RV)) :
    ProcDef → Input → Option (List RV)
  | .indep mean k, .num xs => some (xs.map (rv m r mean.val k.val))
  | .addFn p f, x => do
    let vs ← g p x
    let us ← f.vals S g x vs.length
    pure (List.zipWith (fun v u => v + u • rvOne) vs us)
  | .sum p q, x => do
    let vs ← g p x
    let ws ← g q x
    zipAdd vs ws
  | .scale p c, x => (g p x).map (·.map (c • ·))
  | .fmul p f, x => do
    let vs ← g p x
    let us ← f.vals S g x vs.length
    pure (List.zipWith (fun v u => u • v) vs us)
  | .pre p t, x => do g p (← t.apply x)
  | .diff p d, .num xs => xs.mapM (RF.der slopeOf (g p) d)
  | .cross ps, .num xs => (ps.mapM fun p => g p (.num xs)).map List.flatten
  | .cross ps, .fdd q _ => if q ∈ ps then T q else none
  | .copy p, x => g p x
  | .rem p q, .num xs => do
    let vs ← g p (.num xs)
    let ws ← g q (.num xs)
    if vs.length = xs.length ∧ ws.length = xs.length then
      some (xs.map (rv m r (remE S (pointOf (g p)) (pointOf (g q))) (remC S (pointOf (g p)) (pointOf (g q))))) else none
  | _, _ => none

/-- The values given a list of definitions. -/
noncomputable def valD (S : SO RV) (m : MId) (T : PId → Option (List RV)) (base : PId → Input → Option (List RV)) :
    List (PId × ProcDef) → PId → Input → Option (List RV)
  | [], p, x => base p x
  | (r, d) :: es, p, x => if p = r then defVal S m r T (valD S m T base es) d x else valD S m T base es p x

mutual
/-- The values at any input, where processes have the values `base` before the definitions. -/
noncomputable def vals (S : SO RV) (m : MId) (base : PId → Input → Option (List RV)) (es : List (PId × ProcDef)) :
    Input → PId → Option (List RV)
  | .num xs, p => valD S m (fun _ => none) base es p (.num xs)
  | .fdd q y, p => valD S m (fun q => vals S m base es y q) base es p (.fdd q y)
  | .tup xs, p => valsL S m base es xs p
/-- Concatenation over a tuple. -/
noncomputable def valsL (S : SO RV) (m : MId) (base : PId → Input → Option (List RV)) (es : List (PId × ProcDef)) :
    List Input → PId → Option (List RV)
  | [], _ => some []
  | x :: xs, p => do
    let vs ← vals S m base es x p
    let ws ← valsL S m base es xs p
    pure (vs ++ ws)
end

section Update
variable {V : Type} [AddCommGroup V] [Module ℝ V]

/-- A linear update: `E u + Σ_a C(z_a, u) w_a` and `C(u, v) - Σ_ab C(z_a, u) W_ab C(z_b, v)`. -/
noncomputable def SO.upd (S : SO V) (zs : List V) (W : Matrix (Fin zs.length) (Fin zs.length) ℝ) (hW : W.IsSymm)
    (w : Fin zs.length → ℝ) : SO V where
  E := S.E + ∑ a, w a • S.C (zs.get a)
  C := LinearMap.mk₂ ℝ (fun u v => S.C u v - quadSum S zs W u v)
    (fun u u' v => by
      simp only [quadSum, map_add, LinearMap.add_apply, add_mul, Finset.sum_add_distrib]; ring)
    (fun c u v => by
      simp only [quadSum, map_smul, LinearMap.smul_apply, smul_eq_mul, mul_sub, Finset.mul_sum]
      congr 1
      refine Finset.sum_congr rfl fun a _ => Finset.sum_congr rfl fun b _ => by ring)
    (fun u v v' => by
      simp only [quadSum, map_add, mul_add, Finset.sum_add_distrib]; ring)
    (fun c u v => by
      simp only [quadSum, map_smul, smul_eq_mul, mul_sub, Finset.mul_sum]
      congr 1
      refine Finset.sum_congr rfl fun a _ => Finset.sum_congr rfl fun b _ => by ring)
  symm u v := by
    simp only [LinearMap.mk₂_apply]
    rw [S.symm u v]
    congr 1
    unfold quadSum
    rw [Finset.sum_comm]
    refine Finset.sum_congr rfl fun a _ => Finset.sum_congr rfl fun b _ => ?_
    rw [hW.apply a b]; ring

variable {S : SO V} {zs : List V} {W : Matrix (Fin zs.length) (Fin zs.length) ℝ} {hW : W.IsSymm}
  {w : Fin zs.length → ℝ}

theorem SO.upd_E (u : V) : (S.upd zs W hW w).E u = S.E u + ∑ a, S.C (zs.get a) u * w a := by
  simp [SO.upd, mul_comm]

theorem SO.upd_C (u v : V) : (S.upd zs W hW w).C u v = S.C u v - quadSum S zs W u v := by
  simp [SO.upd]

/-- Updates do not change variables that are uncorrelated with what is observed. -/
theorem SO.upd_E_of (u : V) (h : ∀ z ∈ zs, S.C z u = 0) : (S.upd zs W hW w).E u = S.E u := by
  rw [SO.upd_E, Finset.sum_eq_zero fun a _ => ?_, add_zero]
  rw [h _ (List.get_mem zs a), zero_mul]

theorem SO.upd_C_of (u v : V) (h : ∀ z ∈ zs, S.C z u = 0) : (S.upd zs W hW w).C u v = S.C u v := by
  rw [SO.upd_C, quadSum, Finset.sum_eq_zero fun a _ => Finset.sum_eq_zero fun b _ => ?_, sub_zero]
  rw [h _ (List.get_mem zs a), zero_mul, zero_mul]

theorem noisyGram_symm {noise : Mat} (h : (noisyGram S zs noise).PosDef) : (noisyGram S zs noise)⁻¹.IsSymm := by
  have := h.isHermitian.inv
  rwa [IsHermitian, conjTranspose_eq_transpose_of_trivial] at this

open Classical in
/-- What observing does. -/
noncomputable def SO.observe (S : SO V) (zs : List V) (noise : Mat) (y : List ℝ) : SO V :=
  if h : (noisyGram S zs noise).PosDef then
    S.upd zs _ (noisyGram_symm h) ((noisyGram S zs noise)⁻¹ *ᵥ fun b => y.getD b 0 - S.E (zs.get b))
  else S

theorem SO.observe_isUpdate {noise : Mat} {y : List ℝ} (hr : noise.r = zs.length) (hc : noise.c = zs.length) :
    IsUpdate S (S.observe zs noise y) zs noise y where
  r := hr
  c := hc
  C h u v := by rw [SO.observe, dif_pos h, SO.upd_C]
  E h _ u := by rw [SO.observe, dif_pos h, SO.upd_E]

theorem SO.observe_E_of {noise : Mat} {y : List ℝ} (u : V) (h : ∀ z ∈ zs, S.C z u = 0) :
    (S.observe zs noise y).E u = S.E u := by
  unfold SO.observe
  split
  · exact SO.upd_E_of u h
  · rfl

theorem SO.observe_C_of {noise : Mat} {y : List ℝ} (u v : V) (h : ∀ z ∈ zs, S.C z u = 0) :
    (S.observe zs noise y).C u v = S.C u v := by
  unfold SO.observe
  split
  · exact SO.upd_C_of u v h
  · rfl

theorem sparseA_symm {n k : ℕ} (μ : Method) {Kz : Matrix (Fin n) (Fin n) ℝ} (Kzx : Matrix (Fin n) (Fin k) ℝ)
    (kx noise : Fin k → ℝ) (h : Kz.IsSymm) : (sparseA μ Kz Kzx kx noise).IsSymm := by
  unfold sparseA IsSymm
  rw [transpose_add, h.eq, transpose_mul, transpose_mul, transpose_transpose, transpose_nonsing_inv,
    diagonal_transpose, Matrix.mul_assoc]

theorem IsSymm.inv {n : ℕ} {A : Matrix (Fin n) (Fin n) ℝ} (h : A.IsSymm) : A⁻¹.IsSymm := by
  unfold IsSymm
  rw [transpose_nonsing_inv, h.eq]

theorem quadSum_sub (W' : Matrix (Fin zs.length) (Fin zs.length) ℝ) (u v : V) :
    quadSum S zs (W - W') u v = quadSum S zs W u v - quadSum S zs W' u v := by
  simp only [quadSum, Matrix.sub_apply, mul_sub, sub_mul, Finset.sum_sub_distrib]

theorem noisyGram_isSymm {noise : Mat} (h : (noisyGram S zs noise).PosDef) : (noisyGram S zs noise).IsSymm := by
  have := h.isHermitian
  rwa [IsHermitian, conjTranspose_eq_transpose_of_trivial] at this

open Classical in
/-- What observing does in a sparse approximation. -/
noncomputable def SO.observeSparse (S : SO V) (zs xs : List V) (o : PseudoData) : SO V :=
  if h : (noisyGram S zs o.noiseZ).PosDef then
    S.upd zs ((noisyGram S zs o.noiseZ)⁻¹ - (sparseA o.method (noisyGram S zs o.noiseZ) (crossGram S zs xs)
        (fun j => S.C (xs.get j) (xs.get j)) (fun j => o.noiseX.mat.e j j))⁻¹)
      ((noisyGram_symm h).sub (IsSymm.inv (sparseA_symm _ _ _ _ (noisyGram_isSymm h))))
      (sparseWeights o.method (noisyGram S zs o.noiseZ) (crossGram S zs xs)
        (fun j => S.C (xs.get j) (xs.get j)) (fun j => o.noiseX.mat.e j j)
        (fun b => o.y.getD b 0 - S.E (xs.get b)))
  else S

theorem SO.observeSparse_isUpdate {xs : List V} {o : PseudoData} (zr : o.noiseZ.r = zs.length)
    (zc : o.noiseZ.c = zs.length) (xr : o.noiseX.mat.r = xs.length) (xc : o.noiseX.mat.c = xs.length) :
    IsSparseUpdate S (S.observeSparse zs xs o) zs xs o where
  zr := zr
  zc := zc
  xr := xr
  xc := xc
  C h u v := by rw [SO.observeSparse, dif_pos h, SO.upd_C, quadSum_sub]; ring
  E h _ u := by rw [SO.observeSparse, dif_pos h, SO.upd_E]

theorem SO.observeSparse_E_of {xs : List V} {o : PseudoData} (u : V) (h : ∀ z ∈ zs, S.C z u = 0) :
    (S.observeSparse zs xs o).E u = S.E u := by
  unfold SO.observeSparse
  split
  · exact SO.upd_E_of u h
  · rfl

theorem SO.observeSparse_C_of {xs : List V} {o : PseudoData} (u v : V) (h : ∀ z ∈ zs, S.C z u = 0) :
    (S.observeSparse zs xs o).C u v = S.C u v := by
  unfold SO.observeSparse
  split
  · exact SO.upd_C_of u v h
  · rfl

/-- Expectation and covariance given an observation of processes with values `F`. -/
noncomputable def SO.given (S : SO V) (F : PId → RF V) : Obs → SO V
  | .exact p x noise y => if numElements x = 0 then S else
    match F p x with
    | some zs => S.observe zs noise y
    | none => S
  | .pseudo pu p o =>
    match F pu o.z, F p o.x with
    | some zs, some xs => S.observeSparse zs xs o
    | _, _ => S

theorem SO.given_exact (S : SO V) (F : PId → RF V) (p : PId) (x : Input) (noise : Mat) (y : List ℝ) :
    S.given F (.exact p x noise y) = if numElements x = 0 then S else match F p x with
      | some zs => S.observe zs noise y
      | none => S := rfl

theorem SO.given_pseudo' (S : SO V) (F : PId → RF V) (pu p : PId) (o : PseudoData) :
    S.given F (.pseudo pu p o) = match F pu o.z, F p o.x with
      | some zs, some xs => S.observeSparse zs xs o
      | _, _ => S := rfl

/-- Every conditioning observes values that are defined, with noise of the right size. -/
def Obs.Sized (F : PId → RF V) : Obs → Prop
  | .exact p x noise _ => numElements x = 0 ∨
    ∃ zs, F p x = some zs ∧ noise.r = zs.length ∧ noise.c = zs.length
  | .pseudo pu p o => ∃ zs xs, F pu o.z = some zs ∧ F p o.x = some xs ∧ o.noiseZ.r = zs.length ∧
    o.noiseZ.c = zs.length ∧ o.noiseX.mat.r = xs.length ∧ o.noiseX.mat.c = xs.length

theorem given_law {I : Interp V} {m : MId} {obs : Obs} {F : PId → RF V} (hF : I.F m = F) (h : obs.Sized F) :
    I.PostLaw m ((I.S m).given F obs) obs := by
  subst hF
  cases obs with
  | exact p x noise y =>
    by_cases h0 : numElements x = 0
    · exact .inl ⟨h0, if_pos h0⟩
    · rcases h with h | ⟨zs, hz, hr, hc⟩
      · exact (h0 h).elim
      · refine .inr ⟨h0, zs, hz, ?_⟩
        have : (I.S m).given (I.F m) (.exact p x noise y) = (I.S m).observe zs noise y := by
          show (if _ then _ else _) = _
          rw [if_neg h0, hz]
        rw [this]
        exact SO.observe_isUpdate hr hc
  | pseudo pu p o =>
    obtain ⟨zs, xs, hz, hx, h1, h2, h3, h4⟩ := h
    refine ⟨zs, xs, hz, hx, ?_⟩
    have : (I.S m).given (I.F m) (.pseudo pu p o) = (I.S m).observeSparse zs xs o := by
      show (match I.F m pu o.z, I.F m p o.x with
        | some zs, some xs => (I.S m).observeSparse zs xs o
        | _, _ => I.S m) = _
      rw [hz, hx]
    rw [this]
    exact SO.observeSparse_isUpdate h1 h2 h3 h4

theorem SO.given_of {F : PId → RF V} {obs : Obs} (u : V)
    (h : ∀ p x zs, F p x = some zs → ∀ z ∈ zs, S.C z u = 0) :
    (S.given F obs).E u = S.E u ∧ ∀ v, (S.given F obs).C u v = S.C u v := by
  cases obs with
  | exact p x noise y =>
    by_cases h0 : numElements x = 0
    · have : S.given F (.exact p x noise y) = S := if_pos h0
      rw [this]; exact ⟨rfl, fun _ => rfl⟩
    · have : S.given F (.exact p x noise y) = match F p x with
        | some zs => S.observe zs noise y
        | none => S := if_neg h0
      rw [this]
      cases hz : F p x with
      | none => exact ⟨rfl, fun _ => rfl⟩
      | some zs => exact ⟨SO.observe_E_of u (h p x zs hz), fun v => SO.observe_C_of u v (h p x zs hz)⟩
  | pseudo pu p o =>
    show (SO.E (match F pu o.z, F p o.x with
        | some zs, some xs => S.observeSparse zs xs o
        | _, _ => S)) u = _ ∧ ∀ v, (SO.C (match F pu o.z, F p o.x with
        | some zs, some xs => S.observeSparse zs xs o
        | _, _ => S)) u v = _
    cases hz : F pu o.z with
    | none => exact ⟨rfl, fun _ => rfl⟩
    | some zs =>
      cases hx : F p o.x with
      | none => exact ⟨rfl, fun _ => rfl⟩
      | some xs => exact ⟨SO.observeSparse_E_of u (h pu o.z zs hz), fun v => SO.observeSparse_C_of u v (h pu o.z zs hz)⟩

end Update

/-- Expectation and covariance in measure `m`, and the values of processes. -/
noncomputable def space (L : AWorld) (m : MId) : SO RV × (PId → RF RV) :=
  match L.ms[m]? with
  | none => (so0, fun p x => vals so0 m (fun _ _ => none) [] x p)
  | some a => match a.base with
    | none => (so0, fun p x => vals so0 m (fun _ _ => none) a.defs x p)
    | some u => if _h : u.prior < m then
        ((space L u.prior).1.given (space L u.prior).2 u.obs,
          fun p x => vals ((space L u.prior).1.given (space L u.prior).2 u.obs) m
            (fun p x => if p ∈ a.basePs then (space L u.prior).2 p x else none) a.defs x p)
      else (so0, fun p x => vals so0 m (fun _ _ => none) a.defs x p)
termination_by m

/-- The canonical interpretation. -/
noncomputable def canon (L : AWorld) : Interp RV where
  S m := (space L m).1
  F m := (space L m).2
  one := rvOne
  D := slopeOf

end Stheno
