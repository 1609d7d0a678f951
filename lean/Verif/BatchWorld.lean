import Verif.BatchEval
import Verif.Ops

/-!
# The graph machine with batches

The machine of `Verif/World.lean` and `Verif/Ops.lean`, where observations, means and kernels contain arrays with batch dimensions
(`tests/model/test_cases.py:134-176`, `README.md` on batched computation). The code is the same, so all definitions cite the same lines; they
are repeated because the expressions are of another type.

Simplifications: those of `Verif/World.lean`, `Verif/Ops.lean` and `Verif/BatchEval.lean`; there are no derivatives, and rules given to `add_gp`
are not functions of kernels.
-/

namespace Stheno

namespace Bat

/-- `a + b` for kernels. -/
def kadd (a b : BKExpr) : BKExpr :=
  match a, b with
  | .zero, b => b
  | a, .zero => a
  | a, b => .add a b

/-- `a * b` for kernels. -/
def kmul (a b : BKExpr) : BKExpr :=
  match a, b with
  | .zero, _ => .zero
  | _, .zero => .zero
  | a, b => .mul a b

/-- `k * c` for a scalar `c`. -/
def kscale (c : ℝ) (k : BKExpr) : BKExpr :=
  match k with
  | .zero => .zero
  | k => .scale c k

/-- `reversed(k)`. -/
def krev (k : BKExpr) : BKExpr :=
  match k with
  | .zero => .zero
  | k => .rev k

/-- `k.shift(a, b)`, `k.stretch(a, b)`, `k.select(a, b)`, `k.transform(a, b)`. -/
def kpre (t u : InTr) (k : BKExpr) : BKExpr :=
  match k with
  | .zero => .zero
  | k => .pre t u k

/-- Observations as in `Obs`, where inputs, noises and values are arrays. -/
inductive BObs where
  | exact (p : PId) (x : BInput) (noise y : Ten ℝ)
  | pseudo (pu p : PId) (o : BPseudo)

/-- Bodies of left rules: see `LRule`. -/
inductive BLRule where
  | zero
  | const (k : BKExpr)
  | fn (f : PId → BKExpr)
  | look (p : PId)
  | lookR (p : PId)
  | add (a b : BLRule)
  | scale (c : ℝ) (a : BLRule)
  | tmul (f g : Fn) (a : BLRule)
  | pre (t u : InTr) (a : BLRule)
  | cross (m : MId) (ps : List PId)

/-- The universal rule of a posterior measure: see `URule`. -/
structure BURule where
  prior : MId
  obs : BObs

/-- A `Measure` object (`stheno/model/measure.py:37-47`). `pids` is the set `_pids`, kept in order of
insertion; the dictionaries are association lists, newest binding first. -/
structure BMState where
  ps : List PId := []
  pids : List PId := []
  means : LazyVec BMExpr BURule := {}
  kernels : LazyMat BKExpr BURule BLRule RRule := {}
  gpsByName : List (String × PId) := []
  namesByGp : List (PId × String) := []
  prevDefault : Option MId := none

/-- The heap: all measures, the list `_measures` of each GP (`stheno/model/gp.py:72, 103`), and the
class attribute `Measure.default` (`stheno/model/measure.py:35`). -/
structure BWorld where
  ms : List BMState := []
  gps : List (List MId) := []
  default : Option MId := none

/-- Programs. -/
abbrev BM := EStateM Err BWorld

/-- Read a measure object. -/
def getMeas (m : MId) : BM BMState := fun w =>
  match w.ms[m]? with
  | some s => .ok s w
  | none => .error .dangling w

/-- Update a measure object. -/
def modMeas (m : MId) (f : BMState → BMState) : BM Unit :=
  modify fun w => { w with ms := w.ms.modify m f }

/-- `p._measures` -/
def measuresOf (p : PId) : BM (List MId) := fun w =>
  match w.gps[p]? with
  | some l => .ok l w
  | none => .error .dangling w

/-- Interpretation of the body of a left rule at index `j`, given the interpretation of
`self.kernels[·, ·]`. -/
def runL {F : Type → Type} [Monad F] (look : PId → PId → F BKExpr) (j : PId) : BLRule → F BKExpr
  | .zero => pure .zero
  | .const k => pure k
  | .fn f => pure (f j)
  | .look p => look p j
  | .lookR p => look j p
  | .add a b => do
    let ka ← runL look j a
    let kb ← runL look j b
    pure (kadd ka kb)
  | .scale c a => do
    let ka ← runL look j a
    pure (kscale c ka)
  | .tmul f g a => do
    let ka ← runL look j a
    pure (kmul (.tprod f g) ka)
  | .pre t u a => do
    let ka ← runL look j a
    pure (kpre t u ka)
  | .cross m ps => pure (.adk (.pre .none (.toFdd j) (.mok m ps)))

/-- Interpretation of the body of a right rule at index `i`. -/
def runR {F : Type → Type} [Monad F] (look : PId → PId → F BKExpr) (i : PId) : RRule → F BKExpr
  | .zero => pure .zero
  | .rev p => do
    let k ← look p i
    pure (krev k)
  | .look p => look i p

/-- `Observations.posterior_kernel` (`stheno/model/observations.py:143-154`) and
`AbstractPseudoObservations.posterior_kernel` (255-267), given the interpretation of the kernels of the
prior and of raising `RuntimeError`. `K_x` and `_compute` are evaluated lazily in the model: only the
lookups they make and the check for diagonal noise (293-297) happen here, see `KExpr.post` and
`KExpr.pseudo`; the matrices are computed when the kernel is evaluated. -/
def obsKernel {F : Type → Type} [Monad F] (look : PId → PId → F BKExpr) (raise : F BKExpr)
    (o : BObs) (i j : PId) : F BKExpr :=
  match o with
  | .exact p x noise _ =>
    if x.size = 0 then look i j
    else do
      let kij ← look i j
      let kzi ← look p i
      let kzj ← look p j
      let kzz ← look p p
      pure (.post kij kzi kzj x kzz noise)
  | .pseudo pu p o => do
    let kij ← look i j
    let kzi ← look pu i
    let kzj ← look pu j
    let kzx ← look pu p
    let kzz ← look pu pu
    if o.isDiagonal then do
      let kxx ← look p p
      pure (.pseudo kij kzi kzj kzz kzx kxx o)
    else raise

/-- `Observations.posterior_mean` (`stheno/model/observations.py:156-168`) and
`AbstractPseudoObservations.posterior_mean` (269-277). -/
def obsMean {F : Type → Type} [Monad F] (lookM : PId → F BMExpr) (look : PId → PId → F BKExpr)
    (raise : F BMExpr) (o : BObs) (i : PId) : F BMExpr :=
  match o with
  | .exact p x noise y =>
    if x.size = 0 then lookM i
    else do
      let mi ← lookM i
      let mz ← lookM p
      let kzi ← look p i
      let kzz ← look p p
      pure (.post mi mz kzi x kzz noise y)
  | .pseudo pu p o => do
    let mi ← lookM i
    let mz ← lookM pu
    let kzi ← look pu i
    let kzx ← look pu p
    let kzz ← look pu pu
    if o.isDiagonal then do
      let kxx ← look p p
      let mx ← lookM p
      pure (.pseudo mi mz mx kzi kzz kzx kxx o)
    else raise

/-- Calling the builder that `LazyMatrix._build` found (`stheno/lazy.py:154-168`), given the
interpretation of `kernels[·, ·]` of every measure. -/
def runBuild (look : MId → PId → PId → BM BKExpr) (m : MId) :
    Option (Build BURule BLRule RRule) → BM BKExpr
  | some (.univ u i j) => obsKernel (look u.prior) (throw .runtime) u.obs i j
  | some (.left l j) => runL (look m) j l
  | some (.right r i) => runR (look m) i r
  | none => throw .runtime

/-- Calling the builder that `LazyVector._build` found (`stheno/lazy.py:92-97`). -/
def runBuildM (lookM : MId → PId → BM BMExpr) (look : MId → PId → PId → BM BKExpr) (i : PId) :
    Option BURule → BM BMExpr
  | some u => obsMean (lookM u.prior) (look u.prior) (throw .runtime) u.obs i
  | none => throw .runtime

/-- `measure.kernels[i, j]` (`stheno/lazy.py:50-65` with `_build` 150-168; the builders are the rules of
`stheno/model/measure.py`), with a bound on the depth of the recursion. -/
def getKAux : ℕ → MId → PId → PId → BM BKExpr
  | 0, _, _, _ => throw .fuel
  | n + 1, m, i, j => do
    let s ← getMeas m
    match s.kernels.find i j with
    | some k => pure k
    | none =>
      let k ← runBuild (getKAux n) m (s.kernels.builder i j)
      modMeas m (fun s => { s with kernels := s.kernels.set i j k })
      pure k

/-- `measure.means[i]` (`stheno/lazy.py:50-65` with `_build` 92-97). -/
def getMAux : ℕ → MId → PId → BM BMExpr
  | 0, _, _ => throw .fuel
  | n + 1, m, i => do
    let s ← getMeas m
    match s.means.find i with
    | some k => pure k
    | none =>
      let k ← runBuildM (getMAux n) (getKAux n) i (s.means.builder i)
      modMeas m (fun s => { s with means := s.means.set i k })
      pure k

/-- The largest number of processes in a measure. -/
def BWorld.width (w : BWorld) : ℕ := (w.ms.map (fun s => s.ps.length)).foldr max 0

/-- A bound on the depth of lookups. That it suffices is part of the refinement theorem. -/
def BWorld.fuel (w : BWorld) : ℕ := w.ms.length * (2 * w.width + 3) + 1

/-- `measure.kernels[i, j]` -/
def getK (m : MId) (i j : PId) : BM BKExpr := do getKAux (← get).fuel m i j

/-- `measure.means[i]` -/
def getM (m : MId) (i : PId) : BM BMExpr := do getMAux (← get).fuel m i

/-! ## Methods of `Measure` -/

/-- `Measure._add_p` (`stheno/model/measure.py:93-98`). -/
def addP (m : MId) (p : PId) : BM Unit := do
  modMeas m (fun s => { s with ps := s.ps ++ [p], pids := s.pids ++ [p] })
  modify fun w => { w with gps := w.gps.modify p (· ++ [m]) }

/-- `Measure._update` (`stheno/model/measure.py:100-117`). -/
def update (m : MId) (p : PId) (mean : BMExpr) (kernel : BKExpr) (left : BLRule)
    (right : Option RRule := none) : BM Unit := do
  modMeas m (fun s => { s with means := s.means.set p mean })
  modMeas m (fun s => { s with kernels := s.kernels.set p p kernel })
  modMeas m (fun s => { s with kernels := s.kernels.addLeftRule p s.pids left })
  match right with
  | some r => modMeas m (fun s => { s with kernels := s.kernels.addRightRule p s.pids r })
  | none => modMeas m (fun s => { s with kernels := s.kernels.addRightRule p s.pids (.rev p) })
  addP m p

/-- `GP()` (`stheno/model/gp.py:101-103`). -/
def newGP : BM PId := do
  let w ← get
  set { w with gps := w.gps ++ [[]] }
  pure w.gps.length

/-- `Measure()` (`stheno/model/measure.py:37-47`). -/
def newMeasure : BM MId := do
  let w ← get
  set { w with ms := w.ms ++ [({} : BMState)] }
  pure w.ms.length

/-- `Measure.add_independent_gp` (`stheno/model/measure.py:156-178`). -/
def addIndependent (m : MId) (p : PId) (mean : BMExpr) (kernel : BKExpr) : BM Unit := do
  modMeas m (fun s => { s with means := s.means.set p mean })
  modMeas m (fun s => { s with kernels := s.kernels.set p p kernel })
  modMeas m (fun s => { s with kernels := s.kernels.addLeftRule p s.pids .zero })
  modMeas m (fun s => { s with kernels := s.kernels.addRightRule p s.pids .zero })
  addP m p

/-- Processes that a user-supplied left rule refers to. -/
def BLRule.refs : BLRule → List PId
  | .look p | .lookR p => [p]
  | .add a b => a.refs ++ b.refs
  | .scale _ a | .tmul _ _ a | .pre _ _ a => a.refs
  | .zero | .const _ | .fn _ | .cross _ _ => []

/-- `Measure.add_gp` (`stheno/model/measure.py:119-137`). The argument `right_rule` is accepted and not
used: line 136 passes `right_rule=None`. The left rule is an arbitrary closure in Python; here it is an
`LRule`: any function of `j` and of kernels of the measure between `j` and processes that are in the measure already (otherwise
`sched`: not modelled). -/
def addGP (m : MId) (mean : BMExpr) (kernel : BKExpr) (left : BLRule) (_right : Option RRule) :
    BM PId := do
  let s ← getMeas m
  if left.refs.all (s.ps.contains ·) then do
    let p ← newGP
    update m p mean kernel left none
    pure p
  else throw .sched

/-- `Measure.__call__` for a GP (`stheno/model/measure.py:139-150`). -/
def callGP (m : MId) (p : PId) : BM PId := do
  let pc ← newGP
  let mean ← getM m p
  let kernel ← getK m p p
  update m pc mean kernel (.look p) (some (.look p))
  pure pc

/-- The property `GP.measure` (`stheno/model/gp.py:105-111`). -/
def primary (p : PId) : BM MId := do
  match ← measuresOf p with
  | [] => throw .runtime
  | m :: _ => pure m

/-- `assert_same_measure` (`stheno/model/gp.py:16-27`) for the arguments `p, *ps`. -/
def assertSame (p : PId) : List PId → BM Unit
  | [] => pure ()
  | q :: qs => do
    let mp ← primary p
    let mq ← primary q
    if mp = mq then assertSame p qs else throw .assertion

/-- `Measure.sum` of a GP and a number or function (`stheno/model/measure.py:194-201`). -/
def mSumFn (m : MId) (res p : PId) (f : Fn) : BM Unit := do
  let mean ← getM m p
  let kernel ← getK m p p
  update m res (.add mean (.fn f)) kernel (.look p)

/-- `Measure.sum` of two GPs (`stheno/model/measure.py:203-216`). -/
def mSum (m : MId) (res p1 p2 : PId) : BM Unit := do
  assertSame p1 [p2]
  let m1 ← getM m p1
  let m2 ← getM m p2
  let k1 ← getK m p1 p1
  let k2 ← getK m p2 p2
  let k12 ← getK m p1 p2
  let k21 ← getK m p2 p1
  update m res (.add m1 m2) (kadd (kadd (kadd k1 k2) k12) k21) (.add (.look p1) (.look p2))

/-- `Measure.mul` of a GP and a number (`stheno/model/measure.py:232-239`). -/
noncomputable def mScale (m : MId) (res p : PId) (c : ℝ) : BM Unit := do
  let mean ← getM m p
  let kernel ← getK m p p
  update m res (.scale c mean) (kscale (c ^ 2) kernel) (.scale c (.look p))

/-- `Measure.mul` of a GP and a function (`stheno/model/measure.py:241-251`); `f * kernel` is
`TensorProductKernel(f, f) * kernel`. -/
noncomputable def mFmul (m : MId) (res p : PId) (f : Fn) : BM Unit := do
  let mean ← getM m p
  let kernel ← getK m p p
  update m res (.mul (.fn f) mean) (kmul (.tprod f f) kernel) (.tmul f (.const 1) (.look p))

/-- The second term of the product of two GPs (`stheno/model/measure.py:261-268`). -/
noncomputable def mRem (m : MId) (res p1 p2 : PId) : BM Unit := do
  let m1 ← getM m p1
  let m2 ← getM m p2
  let k1 ← getK m p1 p1
  let k2 ← getK m p2 p2
  let k12 ← getK m p1 p2
  let k21 ← getK m p2 p1
  addIndependent m res (.mul (.scale (-1) m1) m2) (kadd (kmul k1 k2) (kmul k12 k21))

/-- `Measure.mul` of two GPs (`stheno/model/measure.py:253-269`). -/
noncomputable def mMul (m : MId) (res p1 p2 : PId) : BM Unit := do
  assertSame p1 [p2]
  let t1 ← newGP
  let a ← newGP
  mFmul m a p2 (.meanOf m p1)
  let b ← newGP
  mFmul m b p1 (.meanOf m p2)
  mSum m t1 a b
  let t2 ← newGP
  mRem m t2 p1 p2
  mSum m res t1 t2

/-- `Measure.shift`, `stretch`, `select`, `transform` (`stheno/model/measure.py:271-341`), which differ
only in the kind of input transformation. -/
noncomputable def mPre (m : MId) (res p : PId) (t : InTr) : BM Unit := do
  let mean ← getM m p
  let kernel ← getK m p p
  update m res (.pre t mean) (kpre t t kernel) (.pre t t.neutral (.look p))

/-- `Measure.cross` (`stheno/model/measure.py:403-423`). -/
def mCross (m : MId) (res : PId) (ps : List PId) : BM Unit :=
  update m res (.mom m ps) (.mok m ps) (.cross m ps)

/-- `Measure.condition` for an `AbstractObservations` (`stheno/model/measure.py:362-385`). -/
def condition (m : MId) (obs : BObs) : BM MId := do
  let s ← getMeas m
  let post ← newMeasure
  modMeas post (fun t => { t with ps := s.ps, pids := s.pids })
  modMeas post (fun t => { t with means := t.means.addRule t.pids ⟨m, obs⟩ })
  modMeas post (fun t => { t with kernels := t.kernels.addRule t.pids ⟨m, obs⟩ })
  s.ps.forM fun p => modify fun w => { w with gps := w.gps.modify p (· ++ [post]) }
  pure post

/-- `Measure.__enter__` (`stheno/model/measure.py:49-52`); `self.default` reads the class attribute. -/
def enter (m : MId) : BM Unit := do
  let _ ← getMeas m
  let w ← get
  modMeas m (fun s => { s with prevDefault := w.default })
  modify fun w => { w with default := some m }

/-- `Measure.__exit__` (`stheno/model/measure.py:54-55`). -/
def exit (m : MId) : BM Unit := do
  let s ← getMeas m
  modify fun w => { w with default := s.prevDefault }

/-- `Measure.name` (`stheno/model/measure.py:70-91`). -/
def setName (m : MId) (p : PId) (name : String) : BM Unit := do
  let s ← getMeas m
  -- Delete any existing names and back-references for the GP.
  match s.namesByGp.lookup p with
  | some old =>
    modMeas m (fun s => { s with
      gpsByName := s.gpsByName.filter (fun b => b.1 != old)
      namesByGp := s.namesByGp.filter (fun b => b.1 != p) })
  | none => pure ()
  -- Check that name is not in use.
  let s ← getMeas m
  if (s.gpsByName.lookup name).isSome then throw .runtime
  else
    modMeas m (fun s => { s with
      gpsByName := (name, p) :: s.gpsByName
      namesByGp := (p, name) :: s.namesByGp })

/-- `Measure.__getitem__` for a name (`stheno/model/measure.py:62-64`); a missing key is a `KeyError`. -/
def byName (m : MId) (name : String) : BM PId := do
  match (← getMeas m).gpsByName.lookup name with
  | some p => pure p
  | none => throw .key

/-- `Measure.__getitem__` for a GP (`stheno/model/measure.py:66-68`). -/
def nameOf (m : MId) (p : PId) : BM String := do
  match (← getMeas m).namesByGp.lookup p with
  | some n => pure n
  | none => throw .key

/-- `intersection_measure_group` (`stheno/model/gp.py:30-40`) for `p, *ps`: the measures of `p` that
are measures of all others. Python returns a `set`; the order in which the set is iterated is not
determined by the program, see `iterate`. -/
def intersection (p : PId) (ps : List PId) : BM (List MId) := do
  assertSame p ps
  let ms ← measuresOf p
  let rest ← ps.mapM measuresOf
  pure (ms.filter fun m => rest.all (·.contains m))

/-- Iteration over a Python set: the caller names the order, which must be an enumeration of the set. -/
def iterate (s ord : List MId) (f : MId → BM Unit) : BM Unit :=
  if ord.isPerm s then ord.forM f else throw .sched

/-- `cross` (`stheno/model/gp.py:43-55`). `cross()` without arguments fails in
`intersection_measure_group` with an `IndexError` (line 37). -/
def gpCross (ps : List PId) (ord : List MId) : BM PId := do
  let res ← newGP
  match ps with
  | [] => throw .index
  | p :: qs => do
    let s ← intersection p qs
    iterate s ord (fun m => mCross m res ps)
    pure res

/-- The measure a new GP is attached to (`stheno/model/gp.py:74-79`). -/
def resolveMeasure : Option MId → BM MId
  | some m => do
    let _ ← getMeas m
    pure m
  | none => do
    match (← get).default with
    | some m => pure m
    | none => newMeasure

/-- Naming of a new GP (`stheno/model/gp.py:93-95`); an empty name counts as no name. -/
def nameNew (m : MId) (p : PId) : Option String → BM Unit
  | some n => if n = "" then pure () else setName m p n
  | none => pure ()

/-- `GP.__init__` with mean and kernel (`stheno/model/gp.py:70-95`; 97-99 supplies the zero mean).
Numbers and functions given as mean or kernel (lines 82-87) are resolved to expressions beforehand. -/
def gpInit (mean : BMExpr) (kernel : BKExpr) (measure : Option MId) (name : Option String) : BM PId := do
  let p ← newGP
  let m ← resolveMeasure measure
  addIndependent m p mean kernel
  nameNew m p name
  pure p

/-- Operations that build a new GP from one other: a loop over all measures of the argument
(`stheno/model/gp.py:162-167, 176-181, 190-223`). -/
def gpUnary (f : MId → PId → PId → BM Unit) (p : PId) : BM PId := do
  let res ← newGP
  let ms ← measuresOf p
  ms.forM fun m => f m res p
  pure res

/-- `GP.__add__` for two GPs (`stheno/model/gp.py:169-174`). -/
def gpAdd (p q : PId) (ord : List MId) : BM PId := do
  let res ← newGP
  let s ← intersection p [q]
  iterate s ord (fun m => mSum m res p q)
  pure res

/-- `GP.__mul__` for two GPs (`stheno/model/gp.py:183-188`). -/
noncomputable def gpMul (p q : PId) (ord : List MId) : BM PId := do
  let res ← newGP
  let s ← intersection p [q]
  iterate s ord (fun m => mMul m res p q)
  pure res

/-- The setter of `GP.name` (`stheno/model/gp.py:128-132`). -/
def gpName (p : PId) (name : String) : BM Unit := do
  let ms ← measuresOf p
  ms.forM fun m => setName m p name

/-- `GP.condition` (`stheno/model/gp.py:146-155`). -/
def gpCondition (p : PId) (obs : BObs) : BM PId := do
  let m ← primary p
  let post ← condition m obs
  callGP post p

/-- The public operations on the graph. Objects are referred to by their number. -/
inductive BOp where
  | newMeasure
  | newGP
  | gp (mean : BMExpr) (kernel : BKExpr) (measure : Option MId) (name : Option String)
  /-- `p + f`, `f` a number or function -/
  | addFn (p : PId) (f : Fn)
  /-- `p + q` -/
  | add (p q : PId) (ord : List MId)
  /-- `p * c` -/
  | scale (p : PId) (c : ℝ)
  /-- `p * f` -/
  | fmul (p : PId) (f : Fn)
  /-- `p * q` -/
  | mul (p q : PId) (ord : List MId)
  /-- `p.shift(s)`, `p.stretch(s)`, `p.select(*dims)`, `p.transform(f)` -/
  | pre (p : PId) (t : InTr)
  | cross (ps : List PId) (ord : List MId)
  | addGP (m : MId) (mean : BMExpr) (kernel : BKExpr) (left : BLRule) (right : Option RRule)
  /-- `measure(p)` -/
  | call (m : MId) (p : PId)
  /-- `measure.condition(obs)` -/
  | condition (m : MId) (obs : BObs)
  /-- `measure.means[p]` -/
  | getM (m : MId) (p : PId)
  /-- `measure.kernels[p, q]` -/
  | getK (m : MId) (p q : PId)
  /-- `measure.name(p, name)` -/
  | name (m : MId) (p : PId) (s : String)
  /-- `p.name = name` -/
  | gpName (p : PId) (s : String)
  | enter (m : MId)
  | exit (m : MId)

/-- Run one operation, forgetting its result. -/
noncomputable def BOp.run : BOp → BM Unit
  | .newMeasure => do let _ ← Bat.newMeasure
  | .newGP => do let _ ← Bat.newGP
  | .gp mean kernel measure nm => do let _ ← gpInit mean kernel measure nm
  | .addFn p f => do let _ ← gpUnary (fun m res p => mSumFn m res p f) p
  | .add p q ord => do let _ ← gpAdd p q ord
  | .scale p c => do let _ ← gpUnary (fun m res p => mScale m res p c) p
  | .fmul p f => do let _ ← gpUnary (fun m res p => mFmul m res p f) p
  | .mul p q ord => do let _ ← gpMul p q ord
  | .pre p t => do let _ ← gpUnary (fun m res p => mPre m res p t) p
  | .cross ps ord => do let _ ← gpCross ps ord
  | .addGP m mean kernel left right => do let _ ← Bat.addGP m mean kernel left right
  | .call m p => do let _ ← callGP m p
  | .condition m obs => do let _ ← Bat.condition m obs
  | .getM m p => do let _ ← Bat.getM m p
  | .getK m p q => do let _ ← Bat.getK m p q
  | .name m p s => setName m p s
  | .gpName p s => Bat.gpName p s
  | .enter m => Bat.enter m
  | .exit m => Bat.exit m

/-- The state after an operation, whether it returned or raised. -/
noncomputable def BOp.after (o : BOp) (w : BWorld) : BWorld :=
  match o.run w with
  | .ok _ w' => w'
  | .error _ w' => w'

/-- The state after a program: a sequence of operations, each of which may raise (the user catches the
exception and goes on). -/
noncomputable def runOps (ops : List BOp) (w : BWorld) : BWorld :=
  ops.foldl (fun w o => o.after w) w

/-- The exception an operation raises, `none` if it returns. -/
noncomputable def BOp.raises (o : BOp) (w : BWorld) : Option Err :=
  match o.run w with
  | .ok _ _ => none
  | .error e _ => some e

/-- What `measure.kernels[p, q]` returns, `none` if it raises. -/
def kernelAt (w : BWorld) (m : MId) (p q : PId) : Option BKExpr :=
  match getK m p q w with
  | .ok k _ => some k
  | .error _ _ => none

/-- What `measure.means[p]` returns, `none` if it raises. -/
def meanAt (w : BWorld) (m : MId) (p : PId) : Option BMExpr :=
  match getM m p w with
  | .ok k _ => some k
  | .error _ _ => none

/-- `measure.means[p](x)` returns `t`. -/
def MeanCall (w : BWorld) (m : MId) (p : PId) (x : BInput) (t : Ten ℝ) : Prop :=
  ∃ a n, meanAt w m p = some a ∧ (bev (meanAt w) (kernelAt w) n).M a x = some t

/-- `measure.kernels[p, q](x, y)` returns `t`. -/
def KernelCall (w : BWorld) (m : MId) (p q : PId) (x y : BInput) (t : Ten ℝ) : Prop :=
  ∃ k n, kernelAt w m p q = some k ∧ (bev (meanAt w) (kernelAt w) n).K k x y = some t

/-- `measure.kernels[p, q].elwise(x, y)` returns `t`. -/
def ElwiseCall (w : BWorld) (m : MId) (p q : PId) (x y : BInput) (t : Ten ℝ) : Prop :=
  ∃ k n, kernelAt w m p q = some k ∧ (bev (meanAt w) (kernelAt w) n).D k x y = some t

end Bat

end Stheno
