import Verif.World

/-!
# The specification machine

A measure is an optional base (the measure and the observation it was conditioned on) and a list of
definitions written by the user. There are no stores, caches or rule tables. Means and kernels are
read off the definitions by recursion.
-/

namespace Stheno

/-- What the user wrote to define a process in a measure. -/
inductive ProcDef where
  /-- a new GP, independent of everything before it -/
  | indep (mean : MExpr) (kernel : KExpr)
  /-- `p + f` for a number or function `f` -/
  | addFn (p : PId) (f : Fn)
  /-- `p + q` -/
  | sum (p q : PId)
  /-- `c * p` -/
  | scale (p : PId) (c : ℝ)
  /-- `f * p` -/
  | fmul (p : PId) (f : Fn)
  /-- `p.shift(s)`, `p.stretch(s)`, `p.select(*dims)`, `p.transform(g)` -/
  | pre (p : PId) (t : InTr)
  /-- `p.diff(d)` -/
  | diff (p : PId) (d : ℕ)
  /-- `cross(*ps)` -/
  | cross (ps : List PId)
  /-- `measure(p)` -/
  | copy (p : PId)
  /-- the part of the product `p * q` that is independent of everything before it: the second term of
  `stheno/model/measure.py:261-268` -/
  | rem (p q : PId)
  /-- `measure.add_gp(mean, kernel, left_rule)` -/
  | custom (mean : MExpr) (kernel : KExpr) (left : LRule)

/-- A measure in the specification machine: definitions are newest first. -/
structure AMeas where
  /-- the prior, the observation, and the processes of the prior when it was conditioned -/
  base : Option URule := none
  basePs : List PId := []
  defs : List (PId × ProcDef) := []
  gpsByName : List (String × PId) := []
  namesByGp : List (PId × String) := []
  prevDefault : Option MId := none

/-- The processes known given some definitions, oldest first. -/
def knownOf (basePs : List PId) (es : List (PId × ProcDef)) : List PId :=
  basePs ++ (es.map (·.1)).reverse

/-- The processes of a measure, oldest first. -/
def AMeas.ps (a : AMeas) : List PId := knownOf a.basePs a.defs

/-- The state of the specification machine. -/
structure AWorld where
  ms : List AMeas := []
  gps : List (List MId) := []
  default : Option MId := none

/-- The mean of a definition, from the means of earlier processes. -/
noncomputable def defMean (m : MId) (lm : PId → Option MExpr) : ProcDef → Option MExpr
  | .indep mean _ => some mean
  | .addFn p f => do pure (.add (← lm p) (.fn f))
  | .sum p q => do pure (.add (← lm p) (← lm q))
  | .scale p c => do pure (.scale c (← lm p))
  | .fmul p f => do pure (.mul (.fn f) (← lm p))
  | .pre p t => do pure (.pre t (← lm p))
  | .diff p d => do pure (.diff d (← lm p))
  | .cross ps => some (.mom m ps)
  | .copy p => lm p
  | .rem p q => do pure (.mul (.scale (-1) (← lm p)) (← lm q))
  | .custom mean _ _ => some mean

/-- The kernel of a definition, from the kernels of earlier processes. -/
noncomputable def defKernel (m : MId) (lk : PId → PId → Option KExpr) : ProcDef → Option KExpr
  | .indep _ k => some k
  | .addFn p _ => lk p p
  | .sum p q => do
    let k1 ← lk p p
    let k2 ← lk q q
    let k12 ← lk p q
    let k21 ← lk q p
    pure (kadd (kadd (kadd k1 k2) k12) k21)
  | .scale p c => do pure (kscale (c ^ 2) (← lk p p))
  | .fmul p f => do pure (kmul (.tprod f f) (← lk p p))
  | .pre p t => do pure (kpre t t (← lk p p))
  | .diff p d => do pure (kdiff (some d) (some d) (← lk p p))
  | .cross ps => some (.mok m ps)
  | .copy p => lk p p
  | .rem p q => do
    let k1 ← lk p p
    let k2 ← lk q q
    let k12 ← lk p q
    let k21 ← lk q p
    pure (kadd (kmul k1 k2) (kmul k12 k21))
  | .custom _ k _ => some k

/-- The covariance of a defined process (left) with an earlier process `j` (right). -/
noncomputable def defLeft (m : MId) (lk : PId → PId → Option KExpr) (j : PId) :
    ProcDef → Option KExpr
  | .indep _ _ => some .zero
  | .addFn p _ => lk p j
  | .sum p q => do
    let k1 ← lk p j
    let k2 ← lk q j
    pure (kadd k1 k2)
  | .scale p c => do pure (kscale c (← lk p j))
  | .fmul p f => do pure (kmul (.tprod f (.const 1)) (← lk p j))
  | .pre p t => do pure (kpre t t.neutral (← lk p j))
  | .diff p d => do pure (kdiff (some d) none (← lk p j))
  | .cross ps => some (.adk (.pre .none (.toFdd j) (.mok m ps)))
  | .copy p => lk p j
  | .rem _ _ => some .zero
  | .custom _ _ l => runL lk j l

/-- The covariance of an earlier process `i` (left) with a defined process (right). -/
noncomputable def defRight (m : MId) (lk : PId → PId → Option KExpr) (i : PId) :
    ProcDef → Option KExpr
  | .indep _ _ => some .zero
  | .rem _ _ => some .zero
  | .copy p => lk i p
  | d => do pure (krev (← defLeft m lk i d))

/-- The kernel between `i` and `j` given a list of definitions over a base. -/
noncomputable def lookKDefs (m : MId) (base : PId → PId → Option KExpr) (basePs : List PId) :
    List (PId × ProcDef) → PId → PId → Option KExpr
  | [], i, j => if i ∈ basePs ∧ j ∈ basePs then base i j else none
  | (p, d) :: es, i, j =>
    if i = p then
      if j = p then defKernel m (lookKDefs m base basePs es) d
      else if j ∈ knownOf basePs es then defLeft m (lookKDefs m base basePs es) j d
      else none
    else if j = p then
      if i ∈ knownOf basePs es then defRight m (lookKDefs m base basePs es) i d else none
    else lookKDefs m base basePs es i j

/-- The mean of `i` given a list of definitions over a base. -/
noncomputable def lookMDefs (m : MId) (base : PId → Option MExpr) (basePs : List PId) :
    List (PId × ProcDef) → PId → Option MExpr
  | [], i => if i ∈ basePs then base i else none
  | (p, d) :: es, i =>
    if i = p then defMean m (lookMDefs m base basePs es) d else lookMDefs m base basePs es i

/-- Kernels of all measures, with a bound on the height of the stack of posteriors. -/
noncomputable def specKAux (ms : List AMeas) : ℕ → MId → PId → PId → Option KExpr
  | 0, _, _, _ => none
  | n + 1, m, i, j =>
    match ms[m]? with
    | none => none
    | some a =>
      lookKDefs m (fun i j =>
        match a.base with
        | none => none
        | some u => obsKernel (specKAux ms n u.prior) none u.obs i j) a.basePs a.defs i j

/-- Means of all measures, with a bound on the height of the stack of posteriors. -/
noncomputable def specMAux (ms : List AMeas) : ℕ → MId → PId → Option MExpr
  | 0, _, _ => none
  | n + 1, m, i =>
    match ms[m]? with
    | none => none
    | some a =>
      lookMDefs m (fun i =>
        match a.base with
        | none => none
        | some u => obsMean (specMAux ms n u.prior) (specKAux ms n u.prior) none u.obs i)
        a.basePs a.defs i

/-- Specification of `measure.kernels[i, j]`. Priors are created before posteriors, so `m + 1` bounds
the height of the stack of posteriors that ends in `m`. -/
noncomputable def AWorld.kernel (L : AWorld) (m : MId) (i j : PId) : Option KExpr :=
  specKAux L.ms (m + 1) m i j

/-- Specification of `measure.means[i]`. -/
noncomputable def AWorld.mean (L : AWorld) (m : MId) (i : PId) : Option MExpr :=
  specMAux L.ms (m + 1) m i

end Stheno
