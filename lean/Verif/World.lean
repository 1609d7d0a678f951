import Verif.Lazy
import Verif.Syntax

/-!
# The graph machine: heap, lookups and methods of `Measure`

Programs run in a state-and-exception monad in which the state survives an exception, as in Python.
-/

namespace Stheno

/-- Python exceptions. `runtime`, `assertion`, `value`, `key`, `index`, `type`, `attribute`, `zeroDivision` are the Python classes;
`fuel` means that a bounded recursion ran out (shown never to happen), `dangling` a reference
to an object that does not exist (impossible in Python), `sched` that a claimed iteration order of a
Python set is not one, or that a user-supplied rule is outside of the modelled fragment. -/
inductive Err where
  | runtime | assertion | value | key | index | type | attribute | zeroDivision | fuel | dangling | sched
deriving DecidableEq, Repr

/-- A `Measure` object (`stheno/model/measure.py:37-47`). `pids` is the set `_pids`, kept in order of
insertion; the dictionaries are association lists, newest binding first. -/
structure MState where
  ps : List PId := []
  pids : List PId := []
  means : LazyVec MExpr URule := {}
  kernels : LazyMat KExpr URule LRule RRule := {}
  gpsByName : List (String × PId) := []
  namesByGp : List (PId × String) := []
  prevDefault : Option MId := none

/-- The heap: all measures, the list `_measures` of each GP (`stheno/model/gp.py:72, 103`), and the
class attribute `Measure.default` (`stheno/model/measure.py:35`). -/
structure World where
  ms : List MState := []
  gps : List (List MId) := []
  default : Option MId := none

/-- Programs. -/
abbrev M := EStateM Err World

/-- Read a measure object. -/
def getMeas (m : MId) : M MState := fun w =>
  match w.ms[m]? with
  | some s => .ok s w
  | none => .error .dangling w

/-- Update a measure object. -/
def modMeas (m : MId) (f : MState → MState) : M Unit :=
  modify fun w => { w with ms := w.ms.modify m f }

/-- `p._measures` -/
def measuresOf (p : PId) : M (List MId) := fun w =>
  match w.gps[p]? with
  | some l => .ok l w
  | none => .error .dangling w

/-- Interpretation of the body of a left rule at index `j`, given the interpretation of
`self.kernels[·, ·]`. -/
def runL {F : Type → Type} [Monad F] (look : PId → PId → F KExpr) (j : PId) : LRule → F KExpr
  | .zero => pure .zero
  | .const k => pure k
  | .fn f => pure (f j)
  | .map2 f a b => do
    let ka ← runL look j a
    let kb ← runL look j b
    pure (f j ka kb)
  | .look p => look p j
  | .lookR p => look j p
  | .add a b => do
    let ka ← runL look j a
    let kb ← runL look j b
    pure (kadd ka kb)
  | .scale c a => do
    let ka ← runL look j a
    pure (kscale c ka)
  | .tmul f g a => do
    let ka ← runL look j a
    pure (kmul (.tprod f g) ka)
  | .pre t u a => do
    let ka ← runL look j a
    pure (kpre t u ka)
  | .diff d e a => do
    let ka ← runL look j a
    pure (kdiff d e ka)
  | .cross m ps => pure (.adk (.pre .none (.toFdd j) (.mok m ps)))

/-- Interpretation of the body of a right rule at index `i`. -/
def runR {F : Type → Type} [Monad F] (look : PId → PId → F KExpr) (i : PId) : RRule → F KExpr
  | .zero => pure .zero
  | .rev p => do
    let k ← look p i
    pure (krev k)
  | .look p => look i p

/-- `Observations.posterior_kernel` (`stheno/model/observations.py:143-154`) and
`AbstractPseudoObservations.posterior_kernel` (255-267), given the interpretation of the kernels of the
prior and of raising `RuntimeError`. `K_x` and `_compute` are evaluated lazily in the model: only the
lookups they make and the check for diagonal noise (293-297) happen here, see `KExpr.post` and
`KExpr.pseudo`; the matrices are computed when the kernel is evaluated. -/
def obsKernel {F : Type → Type} [Monad F] (look : PId → PId → F KExpr) (raise : F KExpr)
    (o : Obs) (i j : PId) : F KExpr :=
  match o with
  | .exact p x noise _ =>
    if numElements x = 0 then look i j
    else do
      let kij ← look i j
      let kzi ← look p i
      let kzj ← look p j
      let kzz ← look p p
      pure (.post kij kzi kzj x kzz noise)
  | .pseudo pu p o => do
    let kij ← look i j
    let kzi ← look pu i
    let kzj ← look pu j
    let kzx ← look pu p
    let kzz ← look pu pu
    if o.noiseX.isDiagonal then do
      let kxx ← look p p
      pure (.pseudo kij kzi kzj kzz kzx kxx o)
    else raise

/-- `Observations.posterior_mean` (`stheno/model/observations.py:156-168`) and
`AbstractPseudoObservations.posterior_mean` (269-277). -/
def obsMean {F : Type → Type} [Monad F] (lookM : PId → F MExpr) (look : PId → PId → F KExpr)
    (raise : F MExpr) (o : Obs) (i : PId) : F MExpr :=
  match o with
  | .exact p x noise y =>
    if numElements x = 0 then lookM i
    else do
      let mi ← lookM i
      let mz ← lookM p
      let kzi ← look p i
      let kzz ← look p p
      pure (.post mi mz kzi x kzz noise y)
  | .pseudo pu p o => do
    let mi ← lookM i
    let mz ← lookM pu
    let kzi ← look pu i
    let kzx ← look pu p
    let kzz ← look pu pu
    if o.noiseX.isDiagonal then do
      let kxx ← look p p
      let mx ← lookM p
      pure (.pseudo mi mz mx kzi kzz kzx kxx o)
    else raise

/-- Calling the builder that `LazyMatrix._build` found (`stheno/lazy.py:154-168`), given the
interpretation of `kernels[·, ·]` of every measure. -/
def runBuild (look : MId → PId → PId → M KExpr) (m : MId) :
    Option (Build URule LRule RRule) → M KExpr
  | some (.univ u i j) => obsKernel (look u.prior) (throw .runtime) u.obs i j
  | some (.left l j) => runL (look m) j l
  | some (.right r i) => runR (look m) i r
  | none => throw .runtime

/-- Calling the builder that `LazyVector._build` found (`stheno/lazy.py:92-97`). -/
def runBuildM (lookM : MId → PId → M MExpr) (look : MId → PId → PId → M KExpr) (i : PId) :
    Option URule → M MExpr
  | some u => obsMean (lookM u.prior) (look u.prior) (throw .runtime) u.obs i
  | none => throw .runtime

/-- `measure.kernels[i, j]` (`stheno/lazy.py:50-65` with `_build` 150-168; the builders are the rules of
`stheno/model/measure.py`), with a bound on the depth of the recursion. -/
def getKAux : ℕ → MId → PId → PId → M KExpr
  | 0, _, _, _ => throw .fuel
  | n + 1, m, i, j => do
    let s ← getMeas m
    match s.kernels.find i j with
    | some k => pure k
    | none =>
      let k ← runBuild (getKAux n) m (s.kernels.builder i j)
      modMeas m (fun s => { s with kernels := s.kernels.set i j k })
      pure k

/-- `measure.means[i]` (`stheno/lazy.py:50-65` with `_build` 92-97). -/
def getMAux : ℕ → MId → PId → M MExpr
  | 0, _, _ => throw .fuel
  | n + 1, m, i => do
    let s ← getMeas m
    match s.means.find i with
    | some k => pure k
    | none =>
      let k ← runBuildM (getMAux n) (getKAux n) i (s.means.builder i)
      modMeas m (fun s => { s with means := s.means.set i k })
      pure k

/-- The largest number of processes in a measure. -/
def World.width (w : World) : ℕ := (w.ms.map (fun s => s.ps.length)).foldr max 0

/-- A bound on the depth of lookups. That it suffices is part of the refinement theorem. -/
def World.fuel (w : World) : ℕ := w.ms.length * (2 * w.width + 3) + 1

/-- `measure.kernels[i, j]` -/
def getK (m : MId) (i j : PId) : M KExpr := do getKAux (← get).fuel m i j

/-- `measure.means[i]` -/
def getM (m : MId) (i : PId) : M MExpr := do getMAux (← get).fuel m i

/-! ## Methods of `Measure` -/

/-- `Measure._add_p` (`stheno/model/measure.py:93-98`). -/
def addP (m : MId) (p : PId) : M Unit := do
  modMeas m (fun s => { s with ps := s.ps ++ [p], pids := s.pids ++ [p] })
  modify fun w => { w with gps := w.gps.modify p (· ++ [m]) }

/-- `Measure._update` (`stheno/model/measure.py:100-117`). -/
def update (m : MId) (p : PId) (mean : MExpr) (kernel : KExpr) (left : LRule)
    (right : Option RRule := none) : M Unit := do
  modMeas m (fun s => { s with means := s.means.set p mean })
  modMeas m (fun s => { s with kernels := s.kernels.set p p kernel })
  modMeas m (fun s => { s with kernels := s.kernels.addLeftRule p s.pids left })
  match right with
  | some r => modMeas m (fun s => { s with kernels := s.kernels.addRightRule p s.pids r })
  | none => modMeas m (fun s => { s with kernels := s.kernels.addRightRule p s.pids (.rev p) })
  addP m p

/-- `GP()` (`stheno/model/gp.py:101-103`). -/
def newGP : M PId := do
  let w ← get
  set { w with gps := w.gps ++ [[]] }
  pure w.gps.length

/-- `Measure()` (`stheno/model/measure.py:37-47`). -/
def newMeasure : M MId := do
  let w ← get
  set { w with ms := w.ms ++ [({} : MState)] }
  pure w.ms.length

/-- `Measure.add_independent_gp` (`stheno/model/measure.py:156-178`). -/
def addIndependent (m : MId) (p : PId) (mean : MExpr) (kernel : KExpr) : M Unit := do
  modMeas m (fun s => { s with means := s.means.set p mean })
  modMeas m (fun s => { s with kernels := s.kernels.set p p kernel })
  modMeas m (fun s => { s with kernels := s.kernels.addLeftRule p s.pids .zero })
  modMeas m (fun s => { s with kernels := s.kernels.addRightRule p s.pids .zero })
  addP m p

/-- Processes that a user-supplied left rule refers to. -/
def LRule.refs : LRule → List PId
  | .look p | .lookR p => [p]
  | .add a b | .map2 _ a b => a.refs ++ b.refs
  | .scale _ a | .tmul _ _ a | .pre _ _ a | .diff _ _ a => a.refs
  | .zero | .const _ | .fn _ | .cross _ _ => []

/-- `Measure.add_gp` (`stheno/model/measure.py:119-137`). The argument `right_rule` is accepted and not
used: line 136 passes `right_rule=None`. The left rule is an arbitrary closure in Python; here it is an
`LRule`: any function of `j` and of kernels of the measure between `j` and processes that are in the measure already (otherwise
`sched`: not modelled). -/
def addGP (m : MId) (mean : MExpr) (kernel : KExpr) (left : LRule) (_right : Option RRule) :
    M PId := do
  let s ← getMeas m
  if left.refs.all (s.ps.contains ·) then do
    let p ← newGP
    update m p mean kernel left none
    pure p
  else throw .sched

/-- `Measure.__call__` for a GP (`stheno/model/measure.py:139-150`). -/
def callGP (m : MId) (p : PId) : M PId := do
  let pc ← newGP
  let mean ← getM m p
  let kernel ← getK m p p
  update m pc mean kernel (.look p) (some (.look p))
  pure pc

/-- The property `GP.measure` (`stheno/model/gp.py:105-111`). -/
def primary (p : PId) : M MId := do
  match ← measuresOf p with
  | [] => throw .runtime
  | m :: _ => pure m

/-- `assert_same_measure` (`stheno/model/gp.py:16-27`) for the arguments `p, *ps`. -/
def assertSame (p : PId) : List PId → M Unit
  | [] => pure ()
  | q :: qs => do
    let mp ← primary p
    let mq ← primary q
    if mp = mq then assertSame p qs else throw .assertion

/-- `Measure.sum` of a GP and a number or function (`stheno/model/measure.py:194-201`). -/
def mSumFn (m : MId) (res p : PId) (f : Fn) : M Unit := do
  let mean ← getM m p
  let kernel ← getK m p p
  update m res (.add mean (.fn f)) kernel (.look p)

/-- `Measure.sum` of two GPs (`stheno/model/measure.py:203-216`). -/
def mSum (m : MId) (res p1 p2 : PId) : M Unit := do
  assertSame p1 [p2]
  let m1 ← getM m p1
  let m2 ← getM m p2
  let k1 ← getK m p1 p1
  let k2 ← getK m p2 p2
  let k12 ← getK m p1 p2
  let k21 ← getK m p2 p1
  update m res (.add m1 m2) (kadd (kadd (kadd k1 k2) k12) k21) (.add (.look p1) (.look p2))

/-- `Measure.mul` of a GP and a number (`stheno/model/measure.py:232-239`). -/
noncomputable def mScale (m : MId) (res p : PId) (c : ℝ) : M Unit := do
  let mean ← getM m p
  let kernel ← getK m p p
  update m res (.scale c mean) (kscale (c ^ 2) kernel) (.scale c (.look p))

/-- `Measure.mul` of a GP and a function (`stheno/model/measure.py:241-251`); `f * kernel` is
`TensorProductKernel(f, f) * kernel`. -/
noncomputable def mFmul (m : MId) (res p : PId) (f : Fn) : M Unit := do
  let mean ← getM m p
  let kernel ← getK m p p
  update m res (.mul (.fn f) mean) (kmul (.tprod f f) kernel) (.tmul f (.const 1) (.look p))

/-- The second term of the product of two GPs (`stheno/model/measure.py:261-268`). -/
noncomputable def mRem (m : MId) (res p1 p2 : PId) : M Unit := do
  let m1 ← getM m p1
  let m2 ← getM m p2
  let k1 ← getK m p1 p1
  let k2 ← getK m p2 p2
  let k12 ← getK m p1 p2
  let k21 ← getK m p2 p1
  addIndependent m res (.mul (.scale (-1) m1) m2) (kadd (kmul k1 k2) (kmul k12 k21))

/-- `Measure.mul` of two GPs (`stheno/model/measure.py:253-269`). -/
noncomputable def mMul (m : MId) (res p1 p2 : PId) : M Unit := do
  assertSame p1 [p2]
  let t1 ← newGP
  let a ← newGP
  mFmul m a p2 (.meanOf m p1)
  let b ← newGP
  mFmul m b p1 (.meanOf m p2)
  mSum m t1 a b
  let t2 ← newGP
  mRem m t2 p1 p2
  mSum m res t1 t2

/-- The second argument that `Measure` passes so that the right input is left alone:
`shift(s, 0)`, `stretch(s, 1)`, `select(dims, None)`, `transform(f, None)`
(`stheno/model/measure.py:286, 304, 322, 340`). -/
noncomputable def InTr.neutral : InTr → InTr
  | .shift _ => .shift (.scalar 0)
  | .stretch _ => .stretch (.scalar 1)
  | _ => .none

/-- `Measure.shift`, `stretch`, `select`, `transform` (`stheno/model/measure.py:271-341`), which differ
only in the kind of input transformation. -/
noncomputable def mPre (m : MId) (res p : PId) (t : InTr) : M Unit := do
  let mean ← getM m p
  let kernel ← getK m p p
  update m res (.pre t mean) (kpre t t kernel) (.pre t t.neutral (.look p))

/-- `Measure.diff` (`stheno/model/measure.py:343-360`). -/
def mDiff (m : MId) (res p : PId) (d : ℕ) : M Unit := do
  let mean ← getM m p
  let kernel ← getK m p p
  update m res (.diff d mean) (kdiff (some d) (some d) kernel) (.diff (some d) none (.look p))

/-- `Measure.cross` (`stheno/model/measure.py:403-423`). -/
def mCross (m : MId) (res : PId) (ps : List PId) : M Unit :=
  update m res (.mom m ps) (.mok m ps) (.cross m ps)

/-- `Measure.condition` for an `AbstractObservations` (`stheno/model/measure.py:362-385`). -/
def condition (m : MId) (obs : Obs) : M MId := do
  let s ← getMeas m
  let post ← newMeasure
  modMeas post (fun t => { t with ps := s.ps, pids := s.pids })
  modMeas post (fun t => { t with means := t.means.addRule t.pids ⟨m, obs⟩ })
  modMeas post (fun t => { t with kernels := t.kernels.addRule t.pids ⟨m, obs⟩ })
  s.ps.forM fun p => modify fun w => { w with gps := w.gps.modify p (· ++ [post]) }
  pure post

/-- `Measure.__enter__` (`stheno/model/measure.py:49-52`); `self.default` reads the class attribute. -/
def enter (m : MId) : M Unit := do
  let _ ← getMeas m
  let w ← get
  modMeas m (fun s => { s with prevDefault := w.default })
  modify fun w => { w with default := some m }

/-- `Measure.__exit__` (`stheno/model/measure.py:54-55`). -/
def exit (m : MId) : M Unit := do
  let s ← getMeas m
  modify fun w => { w with default := s.prevDefault }

/-- `Measure.name` (`stheno/model/measure.py:70-91`). -/
def setName (m : MId) (p : PId) (name : String) : M Unit := do
  let s ← getMeas m
  -- Delete any existing names and back-references for the GP.
  match s.namesByGp.lookup p with
  | some old =>
    modMeas m (fun s => { s with
      gpsByName := s.gpsByName.filter (fun b => b.1 != old)
      namesByGp := s.namesByGp.filter (fun b => b.1 != p) })
  | none => pure ()
  -- Check that name is not in use.
  let s ← getMeas m
  if (s.gpsByName.lookup name).isSome then throw .runtime
  else
    modMeas m (fun s => { s with
      gpsByName := (name, p) :: s.gpsByName
      namesByGp := (p, name) :: s.namesByGp })

/-- `Measure.__getitem__` for a name (`stheno/model/measure.py:62-64`); a missing key is a `KeyError`. -/
def byName (m : MId) (name : String) : M PId := do
  match (← getMeas m).gpsByName.lookup name with
  | some p => pure p
  | none => throw .key

/-- `Measure.__getitem__` for a GP (`stheno/model/measure.py:66-68`). -/
def nameOf (m : MId) (p : PId) : M String := do
  match (← getMeas m).namesByGp.lookup p with
  | some n => pure n
  | none => throw .key

end Stheno
