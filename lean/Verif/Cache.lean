import Verif.Calls

/-!
# Observation objects and what they remember

The model of `Observations.K_x` and of `K_z`, `elbo`, `mu` and `A` of `AbstractPseudoObservations` with the dictionaries in which the results
are kept (`stheno/model/observations.py:124-141, 181-253, 279-336`).

The dictionaries are keyed by `id(measure)`; the model uses the number of the measure, see `C42_alive` for why this is right. Kernels and means
are called as in `Calls`; the tables in which measures keep their kernels are not part of the state here, because lookups do not depend on
them (`C01`). Means and kernels are evaluated with the contracts in `Eval`. -/

namespace Stheno

open Matrix

open Classical in
/-- `measure.kernels[p, q](x, y)`, `none` if it raises. -/
noncomputable def callK (w : World) (m : MId) (p q : PId) (x y : Input) : Option Mat :=
  if h : ∃ A, KernelCall w m p q x y A then some h.choose else none

open Classical in
/-- `measure.means[p](x)`, `none` if it raises. -/
noncomputable def callM (w : World) (m : MId) (p : PId) (x : Input) : Option (List ℝ) :=
  if h : ∃ v, MeanCall w m p x v then some h.choose else none

open Classical in
/-- `measure.kernels[p, q].elwise(x, y)`, `none` if it raises. -/
noncomputable def callD (w : World) (m : MId) (p q : PId) (x y : Input) : Option (List ℝ) :=
  if h : ∃ u, ElwiseCall w m p q x y u then some h.choose else none

/-- A dictionary with measures as keys. -/
abbrev Dict (α : Type) := MId → Option α

/-- `d[id(measure)] = a` -/
def Dict.set {α : Type} (d : Dict α) (m : MId) (a : α) : Dict α := fun m' => if m' = m then some a else d m'

/-- Code that changes the state `σ`, and may raise. What was changed before raising stays changed. -/
def Mut (σ α : Type) := σ → σ × Option α

namespace Mut
variable {σ α : Type}

instance : Monad (Mut σ) where
  pure a := fun s => (s, some a)
  bind c f := fun s =>
    match c s with
    | (s', some a) => f a s'
    | (s', none) => (s', none)

/-- Something that does not change the state, but may raise. -/
def lift (a : Option α) : Mut σ α := fun s => (s, a)

open Classical in
/-- Raise unless `P`. -/
noncomputable def check (P : Prop) : Mut σ Unit := fun s => (s, if P then some () else none)

/-- Change the state. -/
def write (f : σ → σ) : Mut σ Unit := fun s => (f s, some ())

/-- `try: return self._d[id(measure)]`, `except KeyError: ...`, where the code in the second part ends with reading the entry again. -/
def cached (entry : σ → Option α) (fill : Mut σ Unit) : Mut σ α := fun s =>
  match entry s with
  | some a => (s, some a)
  | none => ((fill s).1, (fill s).2.bind fun _ => entry (fill s).1)

end Mut

/-- `Observations.K_x` (`stheno/model/observations.py:127-141`), for observations of the process `p` at `x`. -/
noncomputable def getKx (w : World) (p : PId) (x : Input) (noise : Mat) (m : MId) : Mut (Dict Mat) Mat :=
  Mut.cached (fun d => d m) do
    let A ← Mut.lift (callK w m p p x x)
    let K ← Mut.lift (A.add noise)
    Mut.write fun d => d.set m K

/-- The dictionaries of a pseudo-observations object (`stheno/model/observations.py:181-188`). -/
structure Kept where
  Kz : Dict Mat := fun _ => none
  elbo : Dict ℝ := fun _ => none
  mu : Dict (List ℝ) := fun _ => none
  A : Dict Mat := fun _ => none

/-- A square matrix as a value. -/
def Mat.ofSq {n : ℕ} (A : Matrix (Fin n) (Fin n) ℝ) : Mat := ⟨n, n, fun i j => if h : i < n ∧ j < n then A ⟨i, h.1⟩ ⟨j, h.2⟩ else 0⟩

/-- `K_zx` as a matrix. -/
def Mat.rect (Z : Mat) (n : ℕ) : Matrix (Fin n) (Fin Z.c) ℝ := fun i j => Z.e i j

/-- `K_x_diag` (`stheno/model/observations.py:303-304`), for `k` data points. DTC does not need it. -/
noncomputable def kxDiag (w : World) (p : PId) (o : PseudoData) (m : MId) (k : ℕ) : Option (Fin k → ℝ) :=
  match o.method with
  | .dtc => some 0
  | _ => do
    let v ← callD w m p p o.x o.x
    if v.length = k then some fun j => v.getD j 0 else none

/-- `_compute` (`stheno/model/observations.py:279-336`), for observations of the process `p` through inducing points of the process `pu`. The
Cholesky factorisation (line 300) raises if the matrix is not positive definite; the entries of `K_n` must be positive (the code would return
infinities or NaNs); sizes must agree (the code might broadcast). -/
noncomputable def compute (w : World) (pu p : PId) (o : PseudoData) (m : MId) : Mut Kept Unit := do
  let Z ← Mut.lift (callK w m pu p o.z o.x)
  let A ← Mut.lift (callK w m pu pu o.z o.z)
  let K ← Mut.lift (A.add o.noiseZ)
  Mut.write fun d => { d with Kz := d.Kz.set m K }
  Mut.check (o.noiseX.isDiagonal = true)
  Mut.check (K.r = K.c ∧ (K.sq K.r).PosDef)
  Mut.check (Z.r = K.r ∧ o.noiseX.mat.r = Z.c ∧ o.noiseX.mat.c = Z.c)
  let kx ← Mut.lift (kxDiag w p o m Z.c)
  let noise : Fin Z.c → ℝ := fun j => o.noiseX.mat.e j j
  Mut.check (∀ j, 0 < knDiag o.method (K.sq K.r) (Z.rect K.r) kx noise j)
  Mut.write fun d => { d with A := d.A.set m (Mat.ofSq (subspaceA o.method (K.sq K.r) (Z.rect K.r) kx noise)) }
  let mx ← Mut.lift (callM w m p o.x)
  Mut.check (mx.length = Z.c ∧ o.y.length = Z.c)
  let ybar : Fin Z.c → ℝ := fun j => o.y.getD j 0 - mx.getD j 0
  let mz ← Mut.lift (callM w m pu o.z)
  Mut.check (mz.length = K.r)
  Mut.write fun d => { d with mu := d.mu.set m (List.ofFn fun a : Fin K.r =>
    mz.getD a 0 + muShift o.method (K.sq K.r) (Z.rect K.r) kx noise ybar a) }
  Mut.write fun d => { d with elbo := d.elbo.set m (elboOf o.method (K.sq K.r) (Z.rect K.r) kx noise ybar) }

section
variable (w : World) (pu p : PId) (o : PseudoData) (m : MId)

/-- `K_z` (`stheno/model/observations.py:194-207`). -/
noncomputable def getKz : Mut Kept Mat := Mut.cached (fun d => d.Kz m) (compute w pu p o m)

/-- `elbo` (`stheno/model/observations.py:209-222`). -/
noncomputable def getElbo : Mut Kept ℝ := Mut.cached (fun d => d.elbo m) (compute w pu p o m)

/-- `mu` (`stheno/model/observations.py:224-237`). -/
noncomputable def getMu : Mut Kept (List ℝ) := Mut.cached (fun d => d.mu m) (compute w pu p o m)

/-- `A` (`stheno/model/observations.py:239-253`). -/
noncomputable def getA : Mut Kept Mat := Mut.cached (fun d => d.A m) (compute w pu p o m)

end

/-- What may happen to a model and an observation object: the model is changed, or something is asked of the object. -/
inductive Event where
  | op (o : Op)
  | Kx (m : MId)
  | Kz (m : MId)
  | elbo (m : MId)
  | mu (m : MId)
  | A (m : MId)

/-- The operations on the model, in order. -/
def Event.ops : List Event → List Op
  | [] => []
  | .op o :: es => o :: Event.ops es
  | _ :: es => Event.ops es

/-- What is in the dictionary of an exact observation object after some events, given the operations that came before. -/
noncomputable def keptKx (p : PId) (x : Input) (noise : Mat) : List Op → List Event → Dict Mat → Dict Mat
  | _, [], d => d
  | ops, .op o :: es, d => keptKx p x noise (ops ++ [o]) es d
  | ops, .Kx m :: es, d => keptKx p x noise ops es (getKx (runOps ops {}) p x noise m d).1
  | ops, _ :: es, d => keptKx p x noise ops es d

/-- What is in the dictionaries of a pseudo-observations object after some events, given the operations that came before. -/
noncomputable def keptPseudo (pu p : PId) (o : PseudoData) : List Op → List Event → Kept → Kept
  | _, [], d => d
  | ops, .op a :: es, d => keptPseudo pu p o (ops ++ [a]) es d
  | ops, .Kx _ :: es, d => keptPseudo pu p o ops es d
  | ops, .Kz m :: es, d => keptPseudo pu p o ops es (getKz (runOps ops {}) pu p o m d).1
  | ops, .elbo m :: es, d => keptPseudo pu p o ops es (getElbo (runOps ops {}) pu p o m d).1
  | ops, .mu m :: es, d => keptPseudo pu p o ops es (getMu (runOps ops {}) pu p o m d).1
  | ops, .A m :: es, d => keptPseudo pu p o ops es (getA (runOps ops {}) pu p o m d).1

end Stheno
