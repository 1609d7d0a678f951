import Verif.World

/-!
# The graph machine: operations on GPs (`stheno/model/gp.py`) and programs
-/

namespace Stheno

/-- `intersection_measure_group` (`stheno/model/gp.py:30-40`) for `p, *ps`: the measures of `p` that
are measures of all others. Python returns a `set`; the order in which the set is iterated is not
determined by the program, see `iterate`. -/
def intersection (p : PId) (ps : List PId) : M (List MId) := do
  assertSame p ps
  let ms ← measuresOf p
  let rest ← ps.mapM measuresOf
  pure (ms.filter fun m => rest.all (·.contains m))

/-- Iteration over a Python set: the caller names the order, which must be an enumeration of the set. -/
def iterate (s ord : List MId) (f : MId → M Unit) : M Unit :=
  if ord.isPerm s then ord.forM f else throw .sched

/-- `cross` (`stheno/model/gp.py:43-55`). `cross()` without arguments fails in
`intersection_measure_group` with an `IndexError` (line 37). -/
def gpCross (ps : List PId) (ord : List MId) : M PId := do
  let res ← newGP
  match ps with
  | [] => throw .index
  | p :: qs => do
    let s ← intersection p qs
    iterate s ord (fun m => mCross m res ps)
    pure res

/-- The measure a new GP is attached to (`stheno/model/gp.py:74-79`). -/
def resolveMeasure : Option MId → M MId
  | some m => do
    let _ ← getMeas m
    pure m
  | none => do
    match (← get).default with
    | some m => pure m
    | none => newMeasure

/-- Naming of a new GP (`stheno/model/gp.py:93-95`); an empty name counts as no name. -/
def nameNew (m : MId) (p : PId) : Option String → M Unit
  | some n => if n = "" then pure () else setName m p n
  | none => pure ()

/-- `GP.__init__` with mean and kernel (`stheno/model/gp.py:70-95`; 97-99 supplies the zero mean).
Numbers and functions given as mean or kernel (lines 82-87) are resolved to expressions beforehand. -/
def gpInit (mean : MExpr) (kernel : KExpr) (measure : Option MId) (name : Option String) : M PId := do
  let p ← newGP
  let m ← resolveMeasure measure
  addIndependent m p mean kernel
  nameNew m p name
  pure p

/-- Operations that build a new GP from one other: a loop over all measures of the argument
(`stheno/model/gp.py:162-167, 176-181, 190-223`). -/
def gpUnary (f : MId → PId → PId → M Unit) (p : PId) : M PId := do
  let res ← newGP
  let ms ← measuresOf p
  ms.forM fun m => f m res p
  pure res

/-- `GP.__add__` for two GPs (`stheno/model/gp.py:169-174`). -/
def gpAdd (p q : PId) (ord : List MId) : M PId := do
  let res ← newGP
  let s ← intersection p [q]
  iterate s ord (fun m => mSum m res p q)
  pure res

/-- `GP.__mul__` for two GPs (`stheno/model/gp.py:183-188`). -/
noncomputable def gpMul (p q : PId) (ord : List MId) : M PId := do
  let res ← newGP
  let s ← intersection p [q]
  iterate s ord (fun m => mMul m res p q)
  pure res

/-- The setter of `GP.name` (`stheno/model/gp.py:128-132`). -/
def gpName (p : PId) (name : String) : M Unit := do
  let ms ← measuresOf p
  ms.forM fun m => setName m p name

/-- `GP.condition` (`stheno/model/gp.py:146-155`). -/
def gpCondition (p : PId) (obs : Obs) : M PId := do
  let m ← primary p
  let post ← condition m obs
  callGP post p

/-- The public operations on the graph. Objects are referred to by their number. -/
inductive Op where
  | newMeasure
  | newGP
  | gp (mean : MExpr) (kernel : KExpr) (measure : Option MId) (name : Option String)
  /-- `p + f`, `f` a number or function -/
  | addFn (p : PId) (f : Fn)
  /-- `p + q` -/
  | add (p q : PId) (ord : List MId)
  /-- `p * c` -/
  | scale (p : PId) (c : ℝ)
  /-- `p * f` -/
  | fmul (p : PId) (f : Fn)
  /-- `p * q` -/
  | mul (p q : PId) (ord : List MId)
  /-- `p.shift(s)`, `p.stretch(s)`, `p.select(*dims)`, `p.transform(f)` -/
  | pre (p : PId) (t : InTr)
  | diff (p : PId) (d : ℕ)
  | cross (ps : List PId) (ord : List MId)
  | addGP (m : MId) (mean : MExpr) (kernel : KExpr) (left : LRule) (right : Option RRule)
  /-- `measure(p)` -/
  | call (m : MId) (p : PId)
  /-- `measure.condition(obs)` -/
  | condition (m : MId) (obs : Obs)
  /-- `measure.means[p]` -/
  | getM (m : MId) (p : PId)
  /-- `measure.kernels[p, q]` -/
  | getK (m : MId) (p q : PId)
  /-- `measure.name(p, name)` -/
  | name (m : MId) (p : PId) (s : String)
  /-- `p.name = name` -/
  | gpName (p : PId) (s : String)
  | enter (m : MId)
  | exit (m : MId)

/-- Run one operation, forgetting its result. -/
noncomputable def Op.run : Op → M Unit
  | .newMeasure => do let _ ← Stheno.newMeasure
  | .newGP => do let _ ← Stheno.newGP
  | .gp mean kernel measure nm => do let _ ← gpInit mean kernel measure nm
  | .addFn p f => do let _ ← gpUnary (fun m res p => mSumFn m res p f) p
  | .add p q ord => do let _ ← gpAdd p q ord
  | .scale p c => do let _ ← gpUnary (fun m res p => mScale m res p c) p
  | .fmul p f => do let _ ← gpUnary (fun m res p => mFmul m res p f) p
  | .mul p q ord => do let _ ← gpMul p q ord
  | .pre p t => do let _ ← gpUnary (fun m res p => mPre m res p t) p
  | .diff p d => do let _ ← gpUnary (fun m res p => mDiff m res p d) p
  | .cross ps ord => do let _ ← gpCross ps ord
  | .addGP m mean kernel left right => do let _ ← Stheno.addGP m mean kernel left right
  | .call m p => do let _ ← callGP m p
  | .condition m obs => do let _ ← Stheno.condition m obs
  | .getM m p => do let _ ← Stheno.getM m p
  | .getK m p q => do let _ ← Stheno.getK m p q
  | .name m p s => setName m p s
  | .gpName p s => Stheno.gpName p s
  | .enter m => Stheno.enter m
  | .exit m => Stheno.exit m

/-- The state after an operation, whether it returned or raised. -/
noncomputable def Op.after (o : Op) (w : World) : World :=
  match o.run w with
  | .ok _ w' => w'
  | .error _ w' => w'

/-- The state after a program: a sequence of operations, each of which may raise (the user catches the
exception and goes on). -/
noncomputable def runOps (ops : List Op) (w : World) : World :=
  ops.foldl (fun w o => o.after w) w

end Stheno
