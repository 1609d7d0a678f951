import Verif.Spec
import Verif.Ops

/-!
# The specification machine: operations

Each public operation, as the list of definitions it writes down. A lookup does not change the state.
-/

namespace Stheno

/-- Programs of the specification machine. -/
abbrev AM := EStateM Err AWorld

/-- The record of a measure. Specifies `getMeas`. -/
def aGetMeas (m : MId) : AM AMeas := fun L =>
  match L.ms[m]? with
  | some a => .ok a L
  | none => .error .dangling L

/-- The measures of a process. Specifies `measuresOf` (`GP._measures`, `stheno/model/gp.py:72, 103`). -/
def aMeasuresOf (p : PId) : AM (List MId) := fun L =>
  match L.gps[p]? with
  | some l => .ok l L
  | none => .error .dangling L

/-- The state in which measure `m` has a new definition of `p`. -/
def AWorld.push (L : AWorld) (m : MId) (p : PId) (d : ProcDef) : AWorld :=
  { L with
    ms := L.ms.modify m (fun a => { a with defs := (p, d) :: a.defs })
    gps := L.gps.modify p (· ++ [m]) }

/-- Define `p` in measure `m`. Fails if what the definition refers to has no mean or no kernel. -/
noncomputable def aDefine (m : MId) (p : PId) (d : ProcDef) : AM Unit := fun L =>
  if (defMean m (L.mean m) d).isSome ∧ (defKernel m (L.kernel m) d).isSome then
    .ok () (L.push m p d)
  else .error .runtime L

/-- A new process without definitions: `GP()` (`stheno/model/gp.py:101-103`). -/
def aNewGP : AM PId := fun L => .ok L.gps.length { L with gps := L.gps ++ [[]] }

/-- A new measure without definitions: `Measure()` (`stheno/model/measure.py:37-47`). -/
def aNewMeasure : AM MId := fun L => .ok L.ms.length { L with ms := L.ms ++ [({} : AMeas)] }

/-- The first measure of a process: `GP.measure` (`stheno/model/gp.py:105-111`). -/
def aPrimary (p : PId) : AM MId := do
  match ← aMeasuresOf p with
  | [] => throw .runtime
  | m :: _ => pure m

/-- Processes must have the same first measure: `assert_same_measure` (`stheno/model/gp.py:16-27`). -/
def aAssertSame (p : PId) : List PId → AM Unit
  | [] => pure ()
  | q :: qs => do
    let mp ← aPrimary p
    let mq ← aPrimary q
    if mp = mq then aAssertSame p qs else throw .assertion

/-- The sum of two processes in a measure: `Measure.sum` (`stheno/model/measure.py:203-216`). -/
noncomputable def aSum (m : MId) (res p q : PId) : AM Unit := do
  aAssertSame p [q]
  aDefine m res (.sum p q)

/-- The product of two processes in a measure: `Measure.mul` (`stheno/model/measure.py:253-269`). It defines intermediate processes. -/
noncomputable def aMul (m : MId) (res p q : PId) : AM Unit := do
  aAssertSame p [q]
  let t1 ← aNewGP
  let a ← aNewGP
  aDefine m a (.fmul q (.meanOf m p))
  let b ← aNewGP
  aDefine m b (.fmul p (.meanOf m q))
  aSum m t1 a b
  let t2 ← aNewGP
  aDefine m t2 (.rem p q)
  aSum m res t1 t2

/-- `Measure.add_gp` (`stheno/model/measure.py:119-137`). A right rule does not enter. The left rule may only refer to processes
of the measure, which is a restriction of the model, as in `addGP`. -/
noncomputable def aAddGP (m : MId) (mean : MExpr) (kernel : KExpr) (left : LRule) : AM PId := do
  let a ← aGetMeas m
  if left.refs.all (a.ps.contains ·) then do
    let p ← aNewGP
    aDefine m p (.custom mean kernel left)
    pure p
  else throw .sched

/-- The copy of a process: `Measure.__call__` (`stheno/model/measure.py:139-150`). -/
noncomputable def aCall (m : MId) (p : PId) : AM PId := do
  let pc ← aNewGP
  let _ ← aGetMeas m
  aDefine m pc (.copy p)
  pure pc

/-- The state in which there is a posterior of `m` as the last measure. -/
def AWorld.cond (L : AWorld) (m : MId) (a : AMeas) (obs : Obs) : AWorld :=
  { L with
    ms := L.ms ++ [{ base := some ⟨m, obs⟩, basePs := a.ps }]
    gps := a.ps.foldl (fun g p => g.modify p (· ++ [L.ms.length])) L.gps }

/-- `Measure.condition` (`stheno/model/measure.py:362-385`). -/
def aCondition (m : MId) (obs : Obs) : AM MId := fun L =>
  match L.ms[m]? with
  | none => .error .dangling L
  | some a => .ok L.ms.length (L.cond m a obs)

/-- Change the record of a measure. Specifies `modMeas`. -/
def aModMeas (m : MId) (f : AMeas → AMeas) : AM Unit :=
  modify fun L => { L with ms := L.ms.modify m f }

/-- `Measure.__enter__` (`stheno/model/measure.py:49-52`). -/
def aEnter (m : MId) : AM Unit := do
  let _ ← aGetMeas m
  let L ← get
  aModMeas m (fun a => { a with prevDefault := L.default })
  modify fun L => { L with default := some m }

/-- `Measure.__exit__` (`stheno/model/measure.py:54-55`). -/
def aExit (m : MId) : AM Unit := do
  let a ← aGetMeas m
  modify fun L => { L with default := a.prevDefault }

/-- Forget the name of `p`. -/
def AMeas.unname (a : AMeas) (p : PId) : AMeas :=
  match a.namesByGp.lookup p with
  | some old =>
    { a with
      gpsByName := a.gpsByName.filter (fun b => b.1 != old)
      namesByGp := a.namesByGp.filter (fun b => b.1 != p) }
  | none => a

/-- `Measure.name` (`stheno/model/measure.py:70-91`). -/
def aSetName (m : MId) (p : PId) (name : String) : AM Unit := do
  let _ ← aGetMeas m
  aModMeas m (·.unname p)
  let a ← aGetMeas m
  if (a.gpsByName.lookup name).isSome then throw .runtime
  else
    aModMeas m (fun a => { a with
      gpsByName := (name, p) :: a.gpsByName
      namesByGp := (p, name) :: a.namesByGp })

/-- `intersection_measure_group` (`stheno/model/gp.py:30-40`). -/
def aIntersection (p : PId) (ps : List PId) : AM (List MId) := do
  aAssertSame p ps
  let ms ← aMeasuresOf p
  let rest ← ps.mapM aMeasuresOf
  pure (ms.filter fun m => rest.all (·.contains m))

/-- A loop over a Python set, in some order `ord` of its elements (`stheno/model/gp.py:52-54, 172-173, 186-187`). -/
def aIterate (s ord : List MId) (f : MId → AM Unit) : AM Unit :=
  if ord.isPerm s then ord.forM f else throw .sched

/-- `cross` (`stheno/model/gp.py:43-55`). -/
noncomputable def aCross (ps : List PId) (ord : List MId) : AM PId := do
  let res ← aNewGP
  match ps with
  | [] => throw .index
  | p :: qs => do
    let s ← aIntersection p qs
    aIterate s ord (fun m => aDefine m res (.cross ps))
    pure res

/-- The measure a new GP is attached to (`stheno/model/gp.py:74-79`). -/
def aResolve : Option MId → AM MId
  | some m => do
    let _ ← aGetMeas m
    pure m
  | none => do
    match (← get).default with
    | some m => pure m
    | none => aNewMeasure

/-- Naming of a new GP (`stheno/model/gp.py:93-95`). -/
def aNameNew (m : MId) (p : PId) : Option String → AM Unit
  | some n => if n = "" then pure () else aSetName m p n
  | none => pure ()

/-- `GP.__init__` with a mean and a kernel (`stheno/model/gp.py:70-95`). -/
noncomputable def aInit (mean : MExpr) (kernel : KExpr) (measure : Option MId)
    (name : Option String) : AM PId := do
  let p ← aNewGP
  let m ← aResolve measure
  aDefine m p (.indep mean kernel)
  aNameNew m p name
  pure p

/-- Operations on one process, in all of its measures (`stheno/model/gp.py:162-167, 176-181, 190-223`). -/
noncomputable def aUnary (d : ProcDef) (p : PId) : AM PId := do
  let res ← aNewGP
  let ms ← aMeasuresOf p
  ms.forM fun m => aDefine m res d
  pure res

/-- `GP.__add__` for two GPs (`stheno/model/gp.py:169-174`). -/
noncomputable def aAdd (p q : PId) (ord : List MId) : AM PId := do
  let res ← aNewGP
  let s ← aIntersection p [q]
  aIterate s ord (fun m => aSum m res p q)
  pure res

/-- `GP.__mul__` for two GPs (`stheno/model/gp.py:183-188`). -/
noncomputable def aGpMul (p q : PId) (ord : List MId) : AM PId := do
  let res ← aNewGP
  let s ← aIntersection p [q]
  aIterate s ord (fun m => aMul m res p q)
  pure res

/-- The setter of `GP.name` (`stheno/model/gp.py:128-132`). -/
def aGpName (p : PId) (name : String) : AM Unit := do
  let ms ← aMeasuresOf p
  ms.forM fun m => aSetName m p name

/-- Specification of a lookup: the state does not change. -/
noncomputable def aGetK (m : MId) (i j : PId) : AM KExpr := fun L =>
  if m < L.ms.length then
    match L.kernel m i j with
    | some k => .ok k L
    | none => .error .runtime L
  else .error .dangling L

/-- Specification of a lookup of a mean: the state does not change. -/
noncomputable def aGetM (m : MId) (i : PId) : AM MExpr := fun L =>
  if m < L.ms.length then
    match L.mean m i with
    | some k => .ok k L
    | none => .error .runtime L
  else .error .dangling L

/-- Specification of the operations. -/
noncomputable def Op.spec : Op → AM Unit
  | .newMeasure => do let _ ← aNewMeasure
  | .newGP => do let _ ← aNewGP
  | .gp mean kernel measure nm => do let _ ← aInit mean kernel measure nm
  | .addFn p f => do let _ ← aUnary (.addFn p f) p
  | .add p q ord => do let _ ← aAdd p q ord
  | .scale p c => do let _ ← aUnary (.scale p c) p
  | .fmul p f => do let _ ← aUnary (.fmul p f) p
  | .mul p q ord => do let _ ← aGpMul p q ord
  | .pre p t => do let _ ← aUnary (.pre p t) p
  | .diff p d => do let _ ← aUnary (.diff p d) p
  | .cross ps ord => do let _ ← aCross ps ord
  | .addGP m mean kernel left _ => do let _ ← aAddGP m mean kernel left
  | .call m p => do let _ ← aCall m p
  | .condition m obs => do let _ ← aCondition m obs
  | .getM m p => do let _ ← aGetM m p
  | .getK m p q => do let _ ← aGetK m p q
  | .name m p s => aSetName m p s
  | .gpName p s => aGpName p s
  | .enter m => aEnter m
  | .exit m => aExit m

/-- The specified state after an operation, whether it returned or raised. -/
noncomputable def Op.specAfter (o : Op) (L : AWorld) : AWorld :=
  match o.spec L with
  | .ok _ L' => L'
  | .error _ L' => L'

/-- The specified state after a program. -/
noncomputable def specOps (ops : List Op) (L : AWorld) : AWorld :=
  ops.foldl (fun L o => o.specAfter L) L

end Stheno
